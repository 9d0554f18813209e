import Verif.Proofs.DocRead
import Verif.Spec.Depth
/-! A source without syntax errors is not nested deeper than the parser goes. -/
namespace Tombi.Formatter
open SyntaxKind View
open Tombi.Spec (opens closes DeeperThan)

/-- How a token changes the depth. -/
def weight (k : SyntaxKind) : Int :=
  if k = BRACKET_START ∨ k = BRACE_START then 1
  else if k = BRACKET_END ∨ k = BRACE_END then -1
  else if k = DOUBLE_BRACKET_START then 2
  else if k = DOUBLE_BRACKET_END then -2
  else 0

/-- The change of depth. -/
def total (ks : List SyntaxKind) : Int := (ks.map weight).sum

/-- The depth never gets above `n`. -/
def Low : Int → List SyntaxKind → Prop
  | n, [] => 0 ≤ n
  | n, k :: ks => 0 ≤ n ∧ Low (n - weight k) ks

theorem Low.nonneg {n : Int} : ∀ {ks : List SyntaxKind}, Low n ks → 0 ≤ n
  | [], h => h
  | _ :: _, h => h.1

theorem Low.append {n : Int} : ∀ {a b : List SyntaxKind}, Low n a → Low (n - total a) b → Low n (a ++ b)
  | [], b, _, hb => by simpa [total] using hb
  | k :: a, b, ha, hb => by
    refine ⟨ha.1, ?_⟩
    refine Low.append ha.2 ?_
    have : n - weight k - total a = n - total (k :: a) := by simp [total]; omega
    rw [this]; exact hb

theorem Low.prefix {n : Int} : ∀ {a b : List SyntaxKind}, Low n (a ++ b) → total a ≤ n
  | [], b, h => by simpa [total] using h.nonneg
  | k :: a, b, h => by
    have := Low.prefix (a := a) h.2
    simp only [total, List.map_cons, List.sum_cons] at this ⊢
    omega

theorem total_append (a b : List SyntaxKind) : total (a ++ b) = total a + total b := by simp [total]

theorem total_cons (k : SyntaxKind) (b : List SyntaxKind) : total (k :: b) = weight k + total b := by simp [total]

/-! ### words -/

/-- The kinds of words. -/
def kindsOf (ws : List Word) : List SyntaxKind := ws.map (·.leaf.1)

theorem kindsOf_append (a b : List Word) : kindsOf (a ++ b) = kindsOf a ++ kindsOf b := by simp [kindsOf]

/-- Words that do not change the depth. -/
def Flat0 (ks : List SyntaxKind) : Prop := ∀ k ∈ ks, weight k = 0

theorem Flat0.low {n : Int} (hn : 0 ≤ n) : ∀ {ks : List SyntaxKind}, Flat0 ks → Low n ks ∧ total ks = 0
  | [], _ => ⟨hn, rfl⟩
  | k :: ks, h => by
    have hk := h k (by simp)
    obtain ⟨h1, h2⟩ := Flat0.low hn (ks := ks) fun x hx => h x (by simp [hx])
    exact ⟨⟨hn, by rw [hk]; simpa using h1⟩, by rw [total_cons, hk, h2]; rfl⟩

theorem flat_comments (cs : List Text) : Flat0 (kindsOf (commentWords cs)) := by
  intro k hk
  cases cs with
  | nil => simp [kindsOf, commentWords] at hk
  | cons c cs =>
    simp only [kindsOf, commentWords, List.map_cons, List.map_map, List.mem_cons, List.mem_map, Function.comp_apply, Word.leaf] at hk
    rcases hk with rfl | ⟨_, _, rfl⟩ <;> rfl

theorem flat_trailing (c : Option Text) : Flat0 (kindsOf (trailingWords c)) := by
  intro k hk
  cases c with
  | none => simp [kindsOf, trailingWords] at hk
  | some c => simp only [kindsOf, trailingWords, List.map_cons, List.map_nil, List.mem_singleton, Word.leaf] at hk; subst hk; rfl

theorem Flat0.append {a b : List SyntaxKind} (ha : Flat0 a) (hb : Flat0 b) : Flat0 (a ++ b) := fun k hk =>
  (List.mem_append.1 hk).elim (ha k) (hb k)

theorem flat_comma (c : Option Comma) : Flat0 (kindsOf (commaWords c)) := by
  cases c with
  | none => intro k hk; simp [kindsOf, commaWords] at hk
  | some c => rw [commaWords, kindsOf_append]; exact (flat_comments _).append (flat_trailing _)

theorem weight_key (k : Format.AstKey) : weight (Word.key k).leaf.1 = 0 := by cases k <;> rfl

theorem flat_keys : (ks : List Format.AstKey) → Flat0 (kindsOf (keyWords ks))
  | [] => by intro k hk; simp [kindsOf, keyWords] at hk
  | [a] => by
    intro k hk
    simp only [kindsOf, keyWords, List.map_cons, List.map_nil, List.mem_singleton] at hk
    rw [hk]; exact weight_key a
  | a :: b :: ks => by
    intro k hk
    rw [keyWords] at hk
    · simp only [kindsOf, List.map_cons, List.mem_cons] at hk
      rcases hk with rfl | rfl | hk
      · exact weight_key a
      · rfl
      · exact flat_keys (b :: ks) k hk
    · simp

/-- A part of a document at depth `d`: it comes back to where it was, and does not go too deep. -/
def Fits (d : Nat) (ks : List SyntaxKind) : Prop := ∀ n : Int, (maxRecursionDepth : Int) - d ≤ n → Low n ks ∧ total ks = 0

theorem Fits.append {d : Nat} {a b : List SyntaxKind} (ha : Fits d a) (hb : Fits d b) : Fits d (a ++ b) := by
  intro n hn
  obtain ⟨a1, a2⟩ := ha n hn
  obtain ⟨b1, b2⟩ := hb n hn
  exact ⟨a1.append (by rw [a2]; simpa using b1), by rw [total_append, a2, b2]; rfl⟩

theorem Flat0.fits {d : Nat} (hd : d ≤ maxRecursionDepth) {ks : List SyntaxKind} (h : Flat0 ks) : Fits d ks :=
  fun n hn => h.low (by omega)

theorem literal_weight {k : SyntaxKind} (h : isLiteral k = true) : weight k = 0 := by
  cases k <;> first | rfl | exact absurd h (by decide)

theorem Fits.within {d : Nat} (hd : d < maxRecursionDepth) {o c : SyntaxKind} (ho : weight o = 1) (hc : weight c = -1)
    {ks : List SyntaxKind} (h : Fits (d + 1) ks) : Fits d (o :: ks ++ [c]) := by
  intro n hn
  obtain ⟨h1, h2⟩ := h (n - 1) (by omega)
  have h0 : (0 : Int) ≤ n := by omega
  refine ⟨?_, by rw [total_append, total_cons, h2, ho]; simp [total, hc]⟩
  refine ⟨h0, ?_⟩
  rw [ho]
  refine h1.append ?_
  rw [h2]
  refine ⟨by omega, ?_⟩
  show (0 : Int) ≤ _
  omega

theorem node_flat {a b : List SyntaxKind} (ha : Flat0 a) (hb : Flat0 b) {d : Nat} (hd : d ≤ maxRecursionDepth) {x : List SyntaxKind}
    (hx : Fits d x) : Fits d (a ++ x ++ b) := ((ha.fits hd).append hx).append (hb.fits hd)

mutual
theorem Node.fits (d : Nat) (hd : d ≤ maxRecursionDepth) : (x : Node) → x.WF d → Fits d (kindsOf x.words)
  | .lit l k t tr, h => by
    rw [Node.WF] at h
    rw [Node.words, kindsOf_append]
    refine (Flat0.append (flat_comments l) ?_).fits hd
    intro y hy
    simp only [kindsOf, List.map_cons, List.mem_cons, Word.leaf] at hy
    rcases hy with rfl | hy
    · exact literal_weight h
    · exact flat_trailing tr y hy
  | .array l s b tr, h => by
    rw [Node.WF] at h
    have hb := Body.fits false (d + 1) h.1 .start b h.2
    have e : kindsOf (Node.array l s b tr).words = kindsOf (commentWords l) ++ (BRACKET_START :: (kindsOf (trailingWords s) ++ kindsOf b.words) ++ [BRACKET_END]) ++
        kindsOf (trailingWords tr) := by
      rw [Node.words]; simp [kindsOf, Word.leaf]
    rw [e]
    exact node_flat (flat_comments l) (flat_trailing tr) hd (((flat_trailing s).fits h.1).append hb |>.within h.1 rfl rfl)
  | .table l s b tr, h => by
    rw [Node.WF] at h
    have hb := Body.fits true (d + 1) h.1 .start b h.2
    have e : kindsOf (Node.table l s b tr).words = kindsOf (commentWords l) ++ (BRACE_START :: (kindsOf (trailingWords s) ++ kindsOf b.words) ++ [BRACE_END]) ++
        kindsOf (trailingWords tr) := by
      rw [Node.words]; simp [kindsOf, Word.leaf]
    rw [e]
    exact node_flat (flat_comments l) (flat_trailing tr) hd (((flat_trailing s).fits h.1).append hb |>.within h.1 rfl rfl)
  | .pair l ks c v, h => by
    rw [Node.WF] at h
    have e : kindsOf (Node.pair l ks c v).words = (kindsOf (commentWords l) ++ kindsOf (keyWords ks) ++ [EQUAL]) ++ kindsOf v.words := by
      rw [Node.words]; simp [kindsOf, Word.leaf]
    rw [e]
    refine Fits.append (Flat0.fits hd ?_) (Node.fits d hd v h.2.2.2)
    exact ((flat_comments l).append (flat_keys ks)).append fun k hk => by
      simp only [List.mem_singleton] at hk; subst hk; rfl
theorem Body.fits (pairs : Bool) (d : Nat) (hd : d ≤ maxRecursionDepth) (prev : Prev) : (b : Body) → b.WF pairs d prev → Fits d (kindsOf b.words)
  | .nil, _ => Flat0.fits hd (by intro k hk; simp [Body.words, kindsOf] at hk)
  | .dangling n cs rest, h => by
    rw [Body.WF] at h
    rw [Body.words, kindsOf_append]
    exact ((flat_comments cs).fits hd).append (Body.fits pairs d hd _ rest h.2.2.2)
  | .item f x c rest, h => by
    rw [Body.WF] at h
    rw [Body.words, kindsOf_append, kindsOf_append]
    exact ((Node.fits d hd x h.2.1).append ((flat_comma c).fits hd)).append (Body.fits pairs d hd _ rest h.2.2.2)
end

theorem section_fits {s : Section} (h : s.WF) : Fits 0 (kindsOf s.words) := by
  have hb := Body.fits true 0 (by decide) .start s.body h.body
  have e : kindsOf s.words = kindsOf (commentWords s.leading) ++ ((if s.isArray then DOUBLE_BRACKET_START else BRACKET_START) ::
      kindsOf (keyWords s.header) ++ [if s.isArray then DOUBLE_BRACKET_END else BRACKET_END]) ++ kindsOf (trailingWords s.trailing) ++
      kindsOf s.body.words := by
    rw [Section.words]; simp [kindsOf, Word.leaf]
  rw [e]
  refine (node_flat (flat_comments _) (flat_trailing _) (by decide) ?_).append hb
  intro n hn
  have hn : (128 : Int) ≤ n := by simpa [maxRecursionDepth] using hn
  have key : ∀ o c : SyntaxKind, ∀ i : Int, weight o = i → weight c = -i → 0 ≤ i → i ≤ 2 → Low n (o :: kindsOf (keyWords s.header) ++ [c]) ∧
      total (o :: kindsOf (keyWords s.header) ++ [c]) = 0 := by
    intro o c i ho hc hi hi2
    obtain ⟨k1, k2⟩ := (flat_keys s.header).low (n := n - i) (by omega)
    refine ⟨⟨by omega, ?_⟩, by rw [total_append, total_cons, k2, ho]; simp [total, hc]; omega⟩
    rw [ho]
    refine k1.append ?_
    rw [k2]
    refine ⟨by omega, ?_⟩
    show (0 : Int) ≤ _
    omega
  cases s.isArray
  · exact key BRACKET_START BRACKET_END 1 rfl rfl (by decide) (by decide)
  · exact key DOUBLE_BRACKET_START DOUBLE_BRACKET_END 2 rfl rfl (by decide) (by decide)

theorem doc_fits {d : Doc} (h : d.WF) : Fits 0 (kindsOf d.words) := by
  rw [Doc.words, kindsOf_append]
  refine (Body.fits true 0 (by decide) .start d.body h.body).append ?_
  have hs := h.sections
  generalize d.sections = ss at hs
  induction ss with
  | nil => exact Flat0.fits (by decide) (by intro k hk; simp [kindsOf] at hk)
  | cons s ss ih =>
    rw [List.map_cons, List.flatten_cons, kindsOf_append]
    exact (section_fits (hs s (by simp))).append (ih fun x hx => hs x (by simp [hx]))

/-! ### from words to tokens -/

/-- The kinds of leaves. -/
def leafKinds (ls : List (SyntaxKind × List Char)) : List SyntaxKind := ls.map (·.1)

mutual
theorem treeWords_total : (g : Green) → ∀ n : Int, Low n (leafKinds (treeWords g)) →
    Low n (leafKinds (leaves g)) ∧ total (leafKinds (leaves g)) = total (leafKinds (treeWords g))
  | .token k t, n, h => by
    rw [treeWords] at h ⊢
    rw [leaves]
    split at h
    · next hk =>
      have : weight k = 0 := by rcases hk with rfl | rfl | rfl <;> rfl
      rw [if_pos hk]
      refine ⟨⟨h, ?_⟩, by simp [leafKinds, total, this]⟩
      rw [this]; simpa [leafKinds] using h
    · next hk => rw [if_neg hk]; exact ⟨h, rfl⟩
  | .node k cs, n, h => by
    rw [treeWords] at h ⊢
    rw [leaves]
    exact treeWordsL_total cs n h
theorem treeWordsL_total : (gs : List Green) → ∀ n : Int, Low n (leafKinds (treeWordsL gs)) →
    Low n (leafKinds (leavesL gs)) ∧ total (leafKinds (leavesL gs)) = total (leafKinds (treeWordsL gs))
  | [], n, h => by
    rw [treeWordsL] at h ⊢
    rw [leavesL]
    exact ⟨h, rfl⟩
  | g :: gs, n, h => by
    rw [treeWordsL] at h ⊢
    rw [leavesL]
    simp only [leafKinds, List.map_append] at h ⊢
    have hs := low_split h
    obtain ⟨a1, a2⟩ := treeWords_total g n hs.1
    obtain ⟨b1, b2⟩ := treeWordsL_total gs _ hs.2
    simp only [leafKinds] at a1 a2 b1 b2
    exact ⟨a1.append (by rw [a2]; exact b1), by rw [total_append, total_append, a2, b2]⟩
where
  low_split {n : Int} : ∀ {a b : List SyntaxKind}, Low n (a ++ b) → Low n a ∧ Low (n - total a) b
    | [], b, h => ⟨h.nonneg, by simpa [total] using h⟩
    | k :: a, b, h => by
      obtain ⟨h1, h2⟩ := low_split (n := n - weight k) (a := a) (b := b) h.2
      refine ⟨⟨h.1, h1⟩, ?_⟩
      have : n - weight k - total a = n - total (k :: a) := by rw [total_cons]; omega
      rw [← this]; exact h2
end

/-- The kinds of the tokens of a view. -/
def viewKinds (v : View) : List SyntaxKind := v.map (·.kind)

theorem pair_kinds {k : SyntaxKind} {t u : VTok} {v : View} (h : atPair k (t :: u :: v) = true) : t.kind = k ∧ u.kind = k := by
  simp only [atPair, Bool.and_eq_true, beq_iff_eq] at h
  exact h.1

theorem reads_low {u : View} {ls : List (SyntaxKind × List Char)} (h : Reads u ls) : ∀ n : Int, Low n (leafKinds ls) → Low n (viewKinds u) := by
  induction h with
  | nil => intro n h; exact h
  | @one t v k ls hk _ ih =>
    intro n h
    have hw : weight k = weight t.kind := by
      rcases hk with rfl | ⟨rfl, hb⟩
      · rfl
      · generalize t.kind = x at hb
        cases x <;> first | rfl | exact absurd hb (by decide)
    exact ⟨h.1, by rw [← hw]; exact ih _ h.2⟩
  | @two t u v k ls hk _ ih =>
    intro n h
    have h2 := ih _ h.2
    have h3 := h2.nonneg
    rcases hk with ⟨rfl, hp⟩ | ⟨rfl, hp⟩
    · obtain ⟨e1, e2⟩ := pair_kinds hp
      have hw : weight DOUBLE_BRACKET_START = 2 := rfl
      have hw1 : weight BRACKET_START = 1 := rfl
      rw [hw] at h2 h3
      refine ⟨h.1, ?_⟩
      show Low (n - weight t.kind) (u.kind :: viewKinds v)
      rw [e1, hw1]
      refine ⟨by omega, ?_⟩
      rw [e2, hw1, show n - 1 - 1 = n - 2 from by omega]
      exact h2
    · obtain ⟨e1, e2⟩ := pair_kinds hp
      have hw : weight DOUBLE_BRACKET_END = -2 := rfl
      have hw1 : weight BRACKET_END = -1 := rfl
      rw [hw] at h2 h3
      have h0 := h.1
      refine ⟨h.1, ?_⟩
      show Low (n - weight t.kind) (u.kind :: viewKinds v)
      rw [e1, hw1]
      refine ⟨by omega, ?_⟩
      rw [e2, hw1, show n - -1 - -1 = n - -2 from by omega]
      exact h2
  | @dotted t v a b ls hk hs _ ih =>
    intro n h
    refine ⟨h.1, ?_⟩
    show Low (n - weight t.kind) (viewKinds v)
    rw [hk]
    have h2 := ih _ h.2.2.2
    have e : n - weight FLOAT = n - weight BARE_KEY - weight DOT - weight BARE_KEY := by
      have : weight FLOAT = 0 := rfl
      have : weight BARE_KEY = 0 := rfl
      have : weight DOT = 0 := rfl
      omega
    rw [e]; exact h2

theorem trivia_weight {k : SyntaxKind} (h : k.isTrivia = true) : weight k = 0 := by
  cases k <;> first | rfl | exact absurd h (by decide)

theorem view_low {src : List Char} : ∀ (ts : List Token) (n : Int), Low n (viewKinds (viewOf src ts)) → Low n (ts.map (·.kind))
  | [], n, h => h
  | t :: ts, n, h => by
    rw [viewOf] at h
    split at h
    · next ht =>
      have hw := trivia_weight ht
      have := view_low ts n h
      exact ⟨h.nonneg, by rw [hw]; simpa using this⟩
    · exact ⟨h.1, view_low ts _ h.2⟩

theorem total_counts (ts : List Token) (h : ∀ t ∈ ts, t.kind ≠ DOUBLE_BRACKET_START ∧ t.kind ≠ DOUBLE_BRACKET_END) :
    total (ts.map (·.kind)) = (ts.countP opens : Int) - ts.countP closes := by
  induction ts with
  | nil => rfl
  | cons t ts ih =>
    have ih := ih fun x hx => h x (by simp [hx])
    obtain ⟨h1, h2⟩ := h t (by simp)
    rw [List.map_cons, total_cons, ih, List.countP_cons, List.countP_cons]
    unfold weight opens closes
    by_cases a : t.kind = BRACKET_START
    · simp [a]; omega
    · by_cases b : t.kind = BRACE_START
      · simp [b]; omega
      · by_cases c : t.kind = BRACKET_END
        · simp [c]; omega
        · by_cases d : t.kind = BRACE_END
          · simp [d]; omega
          · simp [a, b, c, d, h1, h2]

theorem accepted_low {G : Segmenter} {src : List Char} (h : Parseable G src) {r : Parsed} (hr : parse G src = .ok r)
    (he : r.errors = []) {l : Lexed} (hl : lex G src = .ok l) : ¬ DeeperThan 128 l.tokens := by
  rintro ⟨a, b, hab, hlt⟩
  obtain ⟨l', r', hl', hr', hout⟩ := parse_view G src h.1 h.2
  rw [hr] at hr'; cases hr'
  rw [hl] at hl'; cases hl'
  obtain ⟨l', hl', -, -, hst⟩ := lex_static G src
  rw [hl] at hl'; cases hl'
  have hst := hst (h.2 l hl)
  have hdoc := doc_read h hr he
  have ho := hout _ (Nat.le_refl _)
  cases hres : rootV (8 * (l.tokens.length + 2)) (viewOf src l.tokens) with
  | none =>
    rw [hres] at ho
    obtain ⟨e, es, h⟩ := ho
    rw [he] at h
    simp at h
  | some x =>
    obtain ⟨F, v⟩ := x
    rw [hres] at ho
    obtain ⟨h1, hv, D, cs, rfl, htree, hstrip, -⟩ := ho
    obtain ⟨u, hu, hreads, -⟩ := Keeps.root _ _ _ _ hres
    have hwords : Low 128 (leafKinds (treeWordsL cs)) := by
      have := (doc_fits hdoc.2 128 (by decide)).1
      have e : leafKinds (treeWordsL cs) = kindsOf (docOf r.tree).words := by
        rw [← treeWords, ← htree, ← hdoc.1]; simp [leafKinds, kindsOf]
      rw [e]; exact this
    rw [← treeWordsL_strip, hstrip] at hwords
    have hleaves := (treeWordsL_total D 128 hwords).1
    have hlow : Low 128 (viewKinds u) := reads_low hreads 128 (by simpa [leavesL, leaves] using hleaves)
    have hrest : Low (128 - total (viewKinds u)) (viewKinds v) := by
      have hn : 0 ≤ 128 - total (viewKinds u) := by
        have := Low.prefix (b := []) (by simpa using hlow)
        omega
      obtain ⟨w, e, hw, hk, hne⟩ := hst.eof
      have hkinds : viewKinds u ++ viewKinds v = (sig w).map (·.kind) ++ [EOF] := by
        rw [viewKinds, viewKinds, ← List.map_append, ← hu, viewOf_kinds, hw]
        have : sig [e] = [e] := by
          rw [sig, List.filter_cons_of_pos (by rw [hk]; decide), List.filter_nil]
        simp [this, hk]
      have hnone : ∀ x ∈ (sig w).map (·.kind), x ≠ EOF := by
        intro x hx
        obtain ⟨t, ht, rfl⟩ := List.mem_map.1 hx
        exact hne t ((List.mem_filter.1 ht).1)
      cases v with
      | nil => exact hn
      | cons x v =>
        have hx : x.kind = EOF := hv
        have : v = [] := by
          rcases List.eq_nil_or_concat v with h | ⟨a, b, rfl⟩
          · exact h
          · exfalso
            simp only [viewKinds, List.map_cons, List.concat_eq_append, List.map_append, List.map_nil, ← List.cons_append, ← List.append_assoc] at hkinds
            have := (List.append_inj' hkinds rfl).1
            exact hnone x.kind (by rw [← this]; simp) hx
        subst this
        refine ⟨hn, ?_⟩
        show Low (128 - total (viewKinds u) - weight x.kind) []
        rw [hx]
        simpa [viewKinds, Low, weight] using hn
    have hall : Low 128 (viewKinds (viewOf src l.tokens)) := by
      rw [hu, viewKinds, List.map_append]
      exact hlow.append hrest
    have htok := view_low l.tokens 128 hall
    rw [hab, List.map_append] at htok
    have h1 := htok.prefix
    rw [total_counts a fun t ht => by
      have := hst.kinds t (by rw [hab]; simp [ht])
      exact ⟨this.1, this.2.1⟩] at h1
    omega

end Tombi.Formatter
