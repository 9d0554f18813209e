import Verif.Proofs.ViewBuild
/-! The parser on views reads its tokens from left to right, each into one leaf (a dotted number read as keys: into three, two
touching brackets: into one). -/
namespace Tombi
open SyntaxKind View PM

/-- A bracket or a brace. -/
def isBracket (k : SyntaxKind) : Bool :=
  k == BRACKET_START || k == BRACKET_END || k == BRACE_START || k == BRACE_END || k == DOUBLE_BRACKET_START || k == DOUBLE_BRACKET_END

/-- the tokens `v` as leaves -/
inductive Reads : View → List (SyntaxKind × List Char) → Prop where
  | nil : Reads [] []
  | one {t : VTok} {v : View} {k : SyntaxKind} {ls : List (SyntaxKind × List Char)} : k = t.kind ∨ (k = BARE_KEY ∧ isBracket t.kind = false) →
      Reads v ls → Reads (t :: v) ((k, t.text) :: ls)
  | two {t u : VTok} {v : View} {k : SyntaxKind} {ls : List (SyntaxKind × List Char)} :
      k = DOUBLE_BRACKET_START ∧ atPair BRACKET_START (t :: u :: v) = true ∨
        k = DOUBLE_BRACKET_END ∧ atPair BRACKET_END (t :: u :: v) = true →
      Reads v ls → Reads (t :: u :: v) ((k, t.text ++ u.text) :: ls)
  | dotted {t : VTok} {v : View} {a b : List Char} {ls : List (SyntaxKind × List Char)} : t.kind = FLOAT →
      splitDot t.text = [a, b] → Reads v ls →
      Reads (t :: v) ((BARE_KEY, a) :: (DOT, ['.']) :: (BARE_KEY, b) :: ls)

theorem Reads.append {u v : View} {la lb : List (SyntaxKind × List Char)} (ha : Reads u la) (hb : Reads v lb) :
    Reads (u ++ v) (la ++ lb) := by
  induction ha with
  | nil => exact hb
  | one h _ ih => exact .one h ih
  | two h _ ih => exact .two (by simpa [atPair] using h) ih
  | dotted h h' _ ih => exact .dotted h h' ih

/-- no blanks -/
def Plain (v : View) : Prop := ∀ t ∈ v, t.kind.isTrivia = false

theorem plain_viewOf (src : List Char) (ts : List Token) : Plain (viewOf src ts) := by
  induction ts with
  | nil => intro t h; cases h
  | cons t ts ih =>
    by_cases ht : t.kind.isTrivia = true
    · simp only [viewOf, ht, if_true]; exact ih
    · simp only [viewOf, ht]
      intro x hx
      rcases List.mem_cons.mp hx with rfl | hx
      · simpa using ht
      · exact ih x hx

theorem Plain.left {u v : View} (h : Plain (u ++ v)) : Plain u := fun t ht => h t (by simp [ht])
theorem Plain.right {u v : View} (h : Plain (u ++ v)) : Plain v := fun t ht => h t (by simp [ht])

/-- reads tokens into leaves -/
def Keeps (f : PV) : Prop :=
  ∀ v F v', f v = some (F, v') → ∃ u, v = u ++ v' ∧ Reads u (leavesL F) ∧ (Plain v → CleanL F)

namespace Keeps

theorem ok : Keeps okV := by
  intro v F v' h
  cases h
  exact ⟨[], rfl, .nil, fun _ => trivial⟩

theorem fail : Keeps failV := by intro v F v' h; cases h

theorem seq {f g : PV} (hf : Keeps f) (hg : Keeps g) : Keeps (f ⨟ g) := by
  intro v F v' h
  unfold seqV at h
  cases h1 : f v with
  | none => rw [h1] at h; cases h
  | some x =>
    obtain ⟨F1, v1⟩ := x
    rw [h1] at h
    dsimp only at h
    cases h2 : g v1 with
    | none => rw [h2] at h; cases h
    | some y =>
      obtain ⟨F2, v2⟩ := y
      rw [h2] at h
      cases h
      obtain ⟨u1, rfl, a2, a3⟩ := hf _ _ _ h1
      obtain ⟨u2, rfl, b2, b3⟩ := hg _ _ _ h2
      refine ⟨u1 ++ u2, by rw [List.append_assoc], ?_, ?_⟩
      · rw [leavesL_append]; exact a2.append b2
      · intro hp
        rw [CleanL.append]
        exact ⟨a3 hp, b3 hp.right⟩

theorem node {f : PV} {k : SyntaxKind} (hk : k ≠ TOMBSTONE ∧ k ≠ BARE_KEY) (hf : Keeps f) : Keeps (nodeV k f) := by
  intro v F v' h
  unfold nodeV at h
  cases h1 : f v with
  | none => rw [h1] at h; cases h
  | some x =>
    rw [h1] at h
    cases h
    obtain ⟨u, a1, a2, a3⟩ := hf _ _ _ h1
    exact ⟨u, a1, by simpa [leavesL, leaves] using a2, fun hp => ⟨⟨⟨hk.1, fun h => absurd h hk.2⟩, a3 hp⟩, trivial⟩⟩

theorem tok (k : SyntaxKind) : Keeps (tokV k) := by
  intro v F v' h
  cases v with
  | nil => cases h
  | cons t v =>
    simp only [tokV] at h
    split at h
    · next ht =>
      cases h
      subst ht
      exact ⟨[t], rfl, .one (.inl rfl) .nil, fun hp => ⟨hp t (by simp), trivial⟩⟩
    · cases h

theorem pairStart : Keeps (pairV BRACKET_START DOUBLE_BRACKET_START) := by
  intro v F v' h
  unfold pairV at h
  split at h
  · split at h
    · next t u v1 hp =>
      cases h
      exact ⟨[t, u], rfl, .two (.inl ⟨rfl, by simpa [atPair] using hp⟩) .nil, fun _ => ⟨by show SyntaxKind.isTrivia _ = _; decide, trivial⟩⟩
    · cases h
  · cases h

theorem pairEnd : Keeps (pairV BRACKET_END DOUBLE_BRACKET_END) := by
  intro v F v' h
  unfold pairV at h
  split at h
  · split at h
    · next t u v1 hp =>
      cases h
      exact ⟨[t, u], rfl, .two (.inr ⟨rfl, by simpa [atPair] using hp⟩) .nil, fun _ => ⟨by show SyntaxKind.isTrivia _ = _; decide, trivial⟩⟩
    · cases h
  · cases h

theorem leaf_reads (u : View) : Reads u (leavesL (u.map leaf)) := by
  induction u with
  | nil => exact .nil
  | cons t u ih => exact .one (.inl rfl) ih

theorem leaf_clean {u : View} (h : Plain u) : CleanL (u.map leaf) := by
  induction u with
  | nil => trivial
  | cons t u ih => exact ⟨h t (by simp), ih fun x hx => h x (by simp [hx])⟩

theorem span (s : SyntaxKind → Bool) : Keeps (spanV s) := by
  intro v F v' h
  cases h
  refine ⟨v.takeWhile (fun t => s t.kind), by rw [List.takeWhile_append_dropWhile], leaf_reads _, fun hp => leaf_clean ?_⟩
  exact fun t ht => hp t ((List.takeWhile_sublist _).subset ht)

theorem ite {c : View → Prop} [∀ v, Decidable (c v)] {f g : PV} (hf : Keeps f) (hg : Keeps g) :
    Keeps (fun v => if c v then f v else g v) := by
  intro v F v' h
  dsimp only at h
  split at h
  · exact hf v F v' h
  · exact hg v F v' h

theorem none : Keeps (fun _ => Option.none) := by intro v F v' h; cases h

theorem lead : Keeps leadV := span _
theorem trail : Keeps trailV := span _
theorem breaks : Keeps breaksV := span _

theorem key : Keeps keyV := by
  intro v F v' h
  cases v with
  | nil => cases h
  | cons t v =>
    have hb : ∀ (w : List Char), Clean (.node BARE_KEY [.token BARE_KEY w]) := fun w =>
      ⟨⟨by decide, fun _ => ⟨_, _, rfl⟩⟩, by show SyntaxKind.isTrivia _ = _; decide, trivial⟩
    have hone : some ([Green.node t.kind [.token t.kind t.text]], v) = some (F, v') → t.kind ≠ TOMBSTONE →
        ∃ u, t :: v = u ++ v' ∧ Reads u (leavesL F) ∧ (Plain (t :: v) → CleanL F) := by
      intro h ht
      cases h
      exact ⟨[t], rfl, .one (.inl rfl) .nil, fun hp => ⟨⟨⟨ht, fun _ => ⟨_, _, rfl⟩⟩, hp t (by simp), trivial⟩, trivial⟩⟩
    have hbare : some ([Green.node BARE_KEY [.token BARE_KEY t.text]], v) = some (F, v') → isBracket t.kind = false →
        ∃ u, t :: v = u ++ v' ∧ Reads u (leavesL F) ∧ (Plain (t :: v) → CleanL F) := by
      intro h hk
      cases h
      exact ⟨[t], rfl, .one (.inr ⟨rfl, hk⟩) .nil, fun _ => ⟨hb _, trivial⟩⟩
    simp only [keyV] at h
    split at h
    iterate 3 (next hk => exact hone h (by rw [hk]; decide))
    iterate 6 (next hk => exact hbare h (by rw [hk]; decide))
    · next hk =>
      split at h
      · next a b hs =>
        cases h
        refine ⟨[t], rfl, .dotted hk hs .nil, fun _ => ⟨hb _, ⟨⟨by decide, fun _ => ⟨_, _, rfl⟩⟩, by show SyntaxKind.isTrivia _ = _; decide, trivial⟩, hb _, trivial⟩⟩
      · exact hbare h (by rw [hk]; decide)
    · cases h

theorem keysLoop (n : Nat) : Keeps (keysLoopV n) := by
  induction n with
  | zero => exact fail
  | succ n ih => exact seq key (ite (seq (tok _) (ite ih none)) ok)

theorem keys : Keeps keysV := by
  refine node (by decide) ?_
  intro v F v' h
  dsimp only at h
  split at h
  · exact keysLoop _ _ _ _ h
  · exact key _ _ _ h

theorem comma : Keeps commaV := node (by decide) (seq lead (seq (tok _) trail))

theorem take (k : Nat) : Keeps (fun v => some ((v.take k).map leaf, v.drop k)) := by
  intro v F v' h
  cases h
  exact ⟨v.take k, by rw [List.take_append_drop], leaf_reads _, fun hp => leaf_clean fun t ht => hp t (List.mem_of_mem_take ht)⟩

theorem dangling (n : Nat) : Keeps (danglingV n) := by
  induction n with
  | zero => exact fail
  | succ n ih =>
    refine seq breaks ?_
    intro v F v' h
    dsimp only at h
    split at h
    · exact ok v F v' h
    · exact seq (node (by decide) (take _)) ih v F v' h

theorem danglings : Keeps danglingsV := fun v F v' h => dangling _ v F v' h

theorem literal (k : SyntaxKind) (hk : k ≠ TOMBSTONE ∧ k ≠ BARE_KEY) : Keeps (literalV k) := node hk (seq lead (seq (tok _) trail))

theorem nested (d : Nat) {f : Nat → PV} (h : ∀ d, Keeps (f d)) : Keeps (nestedV d f) := by
  unfold nestedV
  split
  · exact fail
  · exact h _

theorem more (first : TokenSet) {loop : PV} (h : Keeps loop) : Keeps (moreV first loop) := ite h ok

theorem afterItem (e first : TokenSet) {loop : PV} (h : Keeps loop) : Keeps (afterItemV e first loop) :=
  ite (seq comma (more _ h)) (ite ok (more _ h))

theorem nextLine {loop : PV} (h : Keeps loop) : Keeps (nextLineV loop) := ite (more _ h) ok

theorem afterPair {loop : PV} (h : Keeps loop) : Keeps (afterPairV loop) := ite (seq comma (nextLine h)) (nextLine h)

theorem lineEnd : Keeps lineEndV := ite ok none

theorem body {rec : NT → Nat → PV} (h : ∀ nt d, Keeps (rec nt d)) (nt : NT) (d : Nat) : Keeps (bodyV rec nt d) := by
  cases nt with
  | value =>
    intro v F v' hv
    have hv' : valueV rec d v = some (F, v') := hv
    unfold valueV at hv'
    split at hv'
    · next hl => exact literal _ ⟨(by intro hx; rw [hx] at hl; cases hl), (by intro hx; rw [hx] at hl; cases hl)⟩ v F v' hv'
    · split at hv'
      · exact nested d (h _) v F v' hv'
      · split at hv'
        · exact nested d (h _) v F v' hv'
        · cases hv'
  | array => exact node (by decide) (seq lead (seq (tok _) (seq trail (seq (h _ _) (seq (tok _) trail)))))
  | arrayLoop => exact seq breaks (seq danglings (ite ok (seq (h _ _) (h _ _))))
  | inlineTable => exact node (by decide) (seq lead (seq (tok _) (seq trail (seq (h _ _) (seq (tok _) trail)))))
  | inlineTableLoop => exact seq breaks (seq danglings (ite ok (seq (h _ _) (h _ _))))
  | valueGroup => exact node (by decide) (h _ _)
  | valueGroupLoop => exact ite ok (seq (h _ _) (afterItem _ _ (h _ _)))
  | commaGroup => exact node (by decide) (h _ _)
  | commaGroupLoop => exact ite ok (seq (h _ _) (afterItem _ _ (h _ _)))
  | keyValue => exact node (by decide) (seq lead (seq keys (seq (tok _) (seq (ite none (ite none (h _ _))) trail))))
  | keyValueGroup => exact node (by decide) (h _ _)
  | keyValueGroupLoop => exact ite ok (seq (h _ _) (afterPair (h _ _)))
  | sectionLoop => exact seq breaks (seq danglings (ite ok (seq (h _ _) (seq lineEnd (h _ _)))))
  | table => exact node (by decide) (seq lead (seq (tok _) (seq keys (seq (tok _) (seq trail (seq lineEnd (h _ _)))))))
  | arrayOfTable =>
    exact node (by decide) (seq lead (seq pairStart (seq keys (seq pairEnd (seq trail (seq lineEnd (h _ _)))))))
  | rootLoop =>
    show Keeps (rootLoopV rec d)
    unfold rootLoopV
    refine seq breaks ?_
    intro v F v' hv
    dsimp only at hv
    split at hv
    · exact ok v F v' hv
    · split at hv
      · exact seq (h _ _) (h _ _) v F v' hv
      · split at hv
        · exact seq (h _ _) (h _ _) v F v' hv
        · cases hv

theorem parse (n : Nat) : ∀ nt d, Keeps (parseV n nt d) := by
  induction n with
  | zero => exact fun _ _ => fail
  | succ n ih => exact fun nt d => body ih nt d

theorem root (n : Nat) : Keeps (rootV n) := node (by decide) (seq (parse _ _ _) (parse _ _ _))

end Keeps

end Tombi
