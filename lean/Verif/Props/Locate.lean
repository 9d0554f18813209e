import Verif.Proofs.LocateNodes
import Verif.Props.TextOps
import Verif.Props.Parser
/-! C84: the token under the cursor. -/
namespace Tombi.Locate
open Tombi.Spec (Boundary Segments AtPosition)

/-- **C84.** At every position that is not after the end of the document the lookup gives the tokens the position touches, from left to
right, and the places of these tokens in the tree: one token, the two that meet at the position, or none if there is no text. In
particular it does not panic, and no position touches more than two tokens. -/
theorem C84_token_at_position (G : Segmenter) (kind : SyntaxKind) (children : List Green) (p : Position)
    (hp : p.le (endOf G Position.zero (tokensOf (.node kind children))) = true) :
    ∃ r, tokenAtPosition G (.node kind children) p = .ok r
      ∧ r.toList.map (fun t => (⟨t.kind, t.text, t.range.start, t.range.stop⟩ : Placed))
        = (placed G Position.zero (tokensOf (.node kind children))).filter (fun t => Touches p t)
      ∧ ∀ t ∈ r.toList, elementAt (.node kind children) t.path = some (.token t.kind t.text) := by
  have hl := leaves_tokens G (.node kind children) []
  have he := (ranges_placed (s := Position.zero) hl).2
  rw [total_leaves] at he
  have h0 : Position.zero.le p = true := by rw [le_iff]; simp only [Position.zero]; omega
  obtain ⟨r, h1, h2⟩ := finds G p (.node kind children) [] Position.zero h0 (by rw [he]; exact hp) (Or.inl ⟨_, _, rfl⟩)
  refine ⟨r, h1, ?_, ?_⟩
  · rw [h2, ← hits_placed hl, List.map_map]; rfl
  · intro t ht
    rw [h2] at ht
    obtain ⟨x, hx, rfl⟩ := List.mem_map.1 ht
    obtain ⟨y, y1, y2, -⟩ := mem_ranges (List.mem_filter.1 hx).1
    obtain ⟨rest, z1, z2⟩ := leaves_at G _ _ y y1
    rw [y2] at z1 z2
    rw [List.nil_append] at z1
    show elementAt _ x.1.1 = _
    rw [z1]; exact z2

/-- **C84 (partial).** The cursor of the editor: if the cursor is between the graphemes `pre` and `post` of the document, the lookup gives
exactly the tokens that start before or at the cursor and end after or at it. Missing: tokens that end inside a grapheme. -/
theorem C84_cursor_partial {G : Segmenter} (hG : Segments G) (e : EncodingKind) (kind : SyntaxKind) (children : List Green)
    (hc : CutsGraphemes G (tokensOf (.node kind children))) (pre post : List Char)
    (ht : (Green.node kind children).text = pre ++ post) (hb : Boundary G pre post) (cursor : LspPosition)
    (ha : AtPosition e cursor pre post) :
    ∃ r, tokenAtPosition G (.node kind children) (Position.fromLsp G cursor (LineIndex.new (pre ++ post) e)) = .ok r
      ∧ r.toList.map (fun t => (t.kind, t.text)) = around pre.length (tokensOf (.node kind children)) := by
  rw [C25_from_editor hG e pre post hb cursor ha]
  have ht' : textOf (tokensOf (.node kind children)) = pre ++ post := by rw [tokensOf_text, ht]
  have hend : Boundary G (pre ++ post) [] := by
    have := hc (tokensOf (.node kind children)) [] (List.append_nil _).symm
    rw [ht'] at this; exact this
  obtain ⟨r, h1, h2, -⟩ := C84_token_at_position G kind children (Spec.graphemePos G pre) (by
    rw [endOf_text hG hc, ht', graphemePos_le hG (by simp) hb hend]; simp)
  refine ⟨r, h1, ?_⟩
  rw [← touches_around hG hc ht' hb, ← h2, List.map_map]
  rfl

/-- **C84 (partial).** The same for the tree of a document: the lookup at any cursor ends normally with the tokens around the cursor. Missing:
documents that are not `Parseable` (C08), and tokens that end inside a grapheme. -/
theorem C84_document_partial {G : Segmenter} (hG : Segments G) (e : EncodingKind) (src : List Char) (h : Parseable G src) (d : Parsed)
    (hd : parse G src = .ok d) (hc : CutsGraphemes G (tokensOf d.tree)) (pre post : List Char) (hs : src = pre ++ post)
    (hb : Boundary G pre post) (cursor : LspPosition) (ha : AtPosition e cursor pre post) :
    ∃ r, tokenAtPosition G d.tree (Position.fromLsp G cursor (LineIndex.new src e)) = .ok r
      ∧ r.toList.map (fun t => (t.kind, t.text)) = around pre.length (tokensOf d.tree) := by
  have ht := (C07_parse_lossless_partial G src h d hd).2
  obtain ⟨l, p, evs, new, _, _, _, _, hp, _⟩ := parse_spec G src h.1 h.2
  rw [hd] at hp
  cases hp
  rw [hs] at ht ⊢
  exact C84_cursor_partial hG e _ _ hc pre post ht hb cursor ha

/-- **C84.** The nodes around the cursor: the lookup of nodes gives exactly the nodes that contain a touched token, each once, and no node
after one that contains it. -/
theorem C84_enclosing_nodes (G : Segmenter) (kind : SyntaxKind) (children : List Green) (p : Position)
    (hp : p.le (endOf G Position.zero (tokensOf (.node kind children))) = true) :
    ∃ r ns, tokenAtPosition G (.node kind children) p = .ok r ∧ ancestorsAtPosition G (.node kind children) p = .ok ns
      ∧ (∀ n, n ∈ ns ↔ ∃ t ∈ r.toList, Encloses (.node kind children) t.path n)
      ∧ ns.Pairwise fun m n => ¬ Within n m := by
  obtain ⟨r, h1, h2, h3⟩ := C84_token_at_position G kind children p hp
  have hmem : ∀ {path : List Nat} {k : SyntaxKind} {t : List Char}, elementAt (.node kind children) path = some (.token k t) →
      ∀ n, n ∈ ancestorsOf [] (.node kind children) path ↔ Encloses (.node kind children) path n := by
    intro path k t h n
    rw [(ancestorsOf_facts (here := []) h).1 n]
    unfold Encloses
    constructor
    · rintro ⟨q, i, rest, cs, e1, e2, e3, e4⟩
      rw [List.nil_append] at e2
      rw [e2]
      exact ⟨⟨i, rest, e1⟩, cs, e3, by rw [e4, textLen_text]⟩
    · rintro ⟨⟨i, rest, e1⟩, cs, e3, e4⟩
      exact ⟨n.path, i, rest, cs, e1, rfl, e3, by rw [e4, textLen_text]⟩
  have hne : ∀ {m n : NodeRef}, ¬ Within n m → m.path ≠ n.path := fun h e => h ⟨[], by rw [e, List.append_nil]⟩
  rw [ancestorsAtPosition, h1]
  cases r with
  | none =>
    refine ⟨_, _, rfl, rfl, fun n => ?_, ?_⟩
    · simp only [AtOffset.toList, mergeBy]; rw [dedup]; simp
    · simp only [mergeBy]; rw [dedup]; exact .nil
  | single a =>
    have ha := h3 a (by simp [AtOffset.toList])
    obtain ⟨-, f2, -, -⟩ := ancestorsOf_facts (here := []) ha
    refine ⟨_, _, rfl, rfl, fun n => ?_, ?_⟩
    · simp only [mergeBy]
      rw [dedup_id (f2.imp hne), hmem ha]
      simp [AtOffset.toList]
    · simp only [mergeBy]
      rw [dedup_id (f2.imp hne)]; exact f2
  | between a b =>
    have ha := h3 a (by simp [AtOffset.toList])
    have hb := h3 b (by simp [AtOffset.toList])
    have hl := leaves_tokens G (.node kind children) []
    -- the two tokens have texts and different places
    have htext : ∀ t ∈ (AtOffset.between a b).toList, t.text ≠ [] := by
      intro t ht
      have : (⟨t.kind, t.text, t.range.start, t.range.stop⟩ : Placed) ∈ (placed G Position.zero (tokensOf (.node kind children))).filter
          (fun t => Touches p t) := by rw [← h2]; exact List.mem_map_of_mem ht
      have := (List.mem_filter.1 this).2
      exact (of_decide_eq_true this).1
    have hdist : a.path ≠ b.path := by
      have h0 : Position.zero.le p = true := by rw [le_iff]; simp only [Position.zero]; omega
      have he := (ranges_placed (s := Position.zero) hl).2
      rw [total_leaves] at he
      obtain ⟨r', g1, g2⟩ := finds G p (.node kind children) [] Position.zero h0 (by rw [he]; exact hp) (Or.inl ⟨_, _, rfl⟩)
      rw [tokenAtPosition] at h1
      rw [h1] at g1
      cases g1
      have hd := (ranges_distinct (s := Position.zero) (leaves_distinct G (.node kind children) [])).filter (fun x => touched x.2 p)
      rw [← hits] at hd
      have hd' : ((hits Position.zero (leaves G [] (.node kind children)) p).map toLeaf).Pairwise fun a b => a.path ≠ b.path :=
        List.pairwise_map.2 hd
      rw [← g2] at hd'
      exact (List.pairwise_cons.1 hd').1 b List.mem_cons_self
    obtain ⟨as, bs, cs, e1, e2, e3, e4, e5⟩ := ancestorsOf_two (here := []) ha hb hdist
      (htext a (by simp [AtOffset.toList])) (htext b (by simp [AtOffset.toList]))
    obtain ⟨-, fa2, fa3, -⟩ := ancestorsOf_facts (here := []) ha
    obtain ⟨-, fb2, -, -⟩ := ancestorsOf_facts (here := []) hb
    have ma := hmem ha
    have mb := hmem hb
    rw [e1] at fa2 fa3 ma
    rw [e2] at fb2 mb
    obtain ⟨pa1, pa2, pa3⟩ := List.pairwise_append.1 fa2
    obtain ⟨pb1, -, pb3⟩ := List.pairwise_append.1 fb2
    obtain ⟨ws, w1, w2⟩ := mergeBy_woven e3 (List.pairwise_append.1 fa3).2.1 e4
    have hR : (ws ++ cs).Pairwise fun m n => ¬ Within n m := by
      refine List.pairwise_append.2 ⟨w1.pairwise pa1 pb1 fun x hx y hy => ⟨(e5 x hx y hy).2, (e5 x hx y hy).1⟩, pa2, fun x hx y hy => ?_⟩
      rcases (w1.mem x).1 hx with hx | hx
      · exact pa3 x hx y hy
      · exact pb3 x hx y hy
    refine ⟨_, ws ++ cs, rfl, ?_, fun n => ?_, hR⟩
    · simp only [e1, e2]
      rw [w2, dedup_append (hR.imp hne)]
    · simp only [AtOffset.toList, List.mem_cons, List.not_mem_nil, or_false, exists_eq_or_imp, exists_eq_left]
      rw [← ma n, ← mb n, List.mem_append, List.mem_append, List.mem_append, w1.mem n]
      constructor
      · rintro ((h | h) | h)
        · exact Or.inl (Or.inl h)
        · exact Or.inr (Or.inl h)
        · exact Or.inl (Or.inr h)
      · rintro ((h | h) | (h | h))
        · exact Or.inl (Or.inl h)
        · exact Or.inr h
        · exact Or.inl (Or.inr h)
        · exact Or.inr h

/-- The tree of `a = 1` and a line break. -/
def sampleTree : Green :=
  .node .ROOT [.node .KEY_VALUE [.node .KEYS [.node .BARE_KEY [.token .BARE_KEY ['a']]], .token .WHITESPACE [' '], .token .EQUAL ['='],
    .token .WHITESPACE [' '], .node .INTEGER_DEC [.token .INTEGER_DEC ['1']]], .token .LINE_BREAK ['\n']]

/-- **C84**, where it fails: a cursor after the end of the document makes the lookup panic, so that a request of an editor whose text is
ahead of the server's is not answered: the first child is taken of none (`cursor.rs:955`). -/
theorem C84_after_end_false : ∃ (G : Segmenter) (root : Green) (p : LspPosition),
    tokenAtPosition G root (Position.fromLsp G p (LineIndex.new root.text .utf16)) = .error .panic :=
  ⟨charSegmenter, sampleTree, ⟨2, 0⟩, by decide +kernel⟩

/-- Concrete case for C84: the end of the document is at 1:0; a cursor in the line, between two tokens, and at the end. -/
example : endOf sampleSegmenter Position.zero (tokensOf sampleTree) = ⟨1, 0⟩
    ∧ (tokenAtPosition sampleSegmenter sampleTree ⟨0, 0⟩).toOption.map (fun r => r.toList.map (·.path)) = some [[0, 0, 0, 0]]
    ∧ (tokenAtPosition sampleSegmenter sampleTree ⟨0, 1⟩).toOption.map (fun r => r.toList.map (·.path)) = some [[0, 0, 0, 0], [0, 1]]
    ∧ (tokenAtPosition sampleSegmenter sampleTree ⟨1, 0⟩).toOption.map (fun r => r.toList.map (·.path)) = some [[1]]
    ∧ (ancestorsAtPosition sampleSegmenter sampleTree ⟨0, 1⟩).toOption.map (fun r => r.map (·.kind))
      = some [.BARE_KEY, .KEYS, .KEY_VALUE, .ROOT] := by
  decide +kernel

/-- Concrete case for the cursor: the text is that of a document, no token of it ends inside a grapheme, and the cursor is between the key
and the space. -/
example : (parse sampleSegmenter "a = 1\n".toList).toOption.map (fun d => tokensOf d.tree) = some (tokensOf sampleTree)
    ∧ Boundary sampleSegmenter "a".toList " = 1\n".toList ∧ AtPosition .utf16 ⟨0, 1⟩ "a".toList " = 1\n".toList
    ∧ around 1 (tokensOf sampleTree) = [(.BARE_KEY, ['a']), (.WHITESPACE, [' '])] := by
  refine ⟨by decide +kernel, by unfold Boundary; decide +kernel, ⟨by decide +kernel, by decide +kernel, fun a b _ h => ?_⟩, by decide +kernel⟩
  exact absurd h (by intro h; injection h with h; exact absurd h (by decide))

example : CutsGraphemes sampleSegmenter (tokensOf sampleTree) := by
  intro a b h
  have h1 : a = (tokensOf sampleTree).take a.length := by rw [h, List.take_left]
  have h2 : b = (tokensOf sampleTree).drop a.length := by rw [h, List.drop_left]
  have hl := congrArg List.length h
  rw [List.length_append, show (tokensOf sampleTree).length = 6 by decide +kernel] at hl
  rw [h1, h2]
  have : ∀ n ≤ 6, Boundary sampleSegmenter (textOf ((tokensOf sampleTree).take n)) (textOf ((tokensOf sampleTree).drop n)) := by
    unfold Boundary; decide +kernel
  exact this _ (by omega)

end Tombi.Locate
