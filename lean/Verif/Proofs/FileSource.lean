import Verif.Proofs.ReadTree
import Verif.Props.FormatAgain
import Verif.Proofs.FileParse
/-! Proofs for C71: a text of the TOML grammar is a source that the theorems about formatting speak of. -/
namespace Tombi.Reading
open SyntaxKind Spec
open Tombi.TomlFile
open Tombi.Formatter (Node Body Section Doc Comma Word docOf keyWords commentWords trailingWords commaWords TomlToken DotKey markText)
open Tombi.Format (AstKey)

/-- Words of the grammar, where bare keys before a dot are neither dates nor digits. -/
structure WordsFine (ws : List Word) : Prop where
  token : ∀ w ∈ ws, TomlToken w.leaf
  head : ws.head? ≠ some (.mark DOT)
  names : ∀ a t b, ws = a ++ .key (.bare t) :: .mark DOT :: b → DotKey t

theorem WordsFine.nil : WordsFine [] := ⟨nofun, nofun, fun a t b h => by simp at h⟩

theorem WordsFine.app {a b : List Word} (ha : WordsFine a) (hb : WordsFine b) : WordsFine (a ++ b) where
  token := fun w hw => (List.mem_append.mp hw).elim (ha.token w) (hb.token w)
  head := by
    cases a with
    | nil => exact hb.head
    | cons x a => exact ha.head
  names := fun x t y h => by
    rcases List.append_eq_append_iff.mp h with ⟨r, rfl, h'⟩ | ⟨r, rfl, h'⟩
    · exact hb.names r t y h'
    · cases r with
      | nil => exact hb.names [] t y h'.symm
      | cons c r =>
        simp only [List.cons_append, List.cons.injEq] at h'
        obtain ⟨rfl, h'⟩ := h'
        cases r with
        | nil =>
          exact absurd (by rw [show b = _ from h'.symm]; rfl) hb.head
        | cons d r =>
          simp only [List.cons_append, List.cons.injEq] at h'
          obtain ⟨rfl, h'⟩ := h'
          exact ha.names x t r rfl

theorem WordsFine.one {w : Word} (h : TomlToken w.leaf) (hd : w ≠ .mark DOT) : WordsFine [w] where
  token := fun x hx => by simp at hx; rw [hx]; exact h
  head := by simpa using hd
  names := fun a t b h => by
    cases a with
    | nil => simp at h
    | cons x a => simp at h

theorem WordsFine.cons {w : Word} {ws : List Word} (h : TomlToken w.leaf) (hd : w ≠ .mark DOT) (hs : WordsFine ws) :
    WordsFine (w :: ws) := (WordsFine.one h hd).app hs

theorem fine_comments (cs : List Text) : WordsFine (commentWords cs) := by
  have key : ∀ cs : List Text, WordsFine (cs.map (.comment false)) := by
    intro cs
    induction cs with
    | nil => exact .nil
    | cons c cs ih => exact .cons .comment nofun ih
  cases cs with
  | nil => exact .nil
  | cons c cs => exact .cons .comment nofun (key cs)

theorem fine_trailing (c : Option Text) : WordsFine (trailingWords c) := by
  cases c with
  | none => exact .nil
  | some c => exact .one .comment nofun

theorem fine_comma (c : Option Comma) : WordsFine (commaWords c) := by
  cases c with
  | none => exact .nil
  | some c => exact (fine_comments _).app (fine_trailing _)

theorem fine_key {k : AstKey} (h : Words.usual.key k) : TomlToken (Word.key k).leaf := by
  cases k with
  | bare t => exact .bare h
  | basic t => exact .literal (.basic h)
  | literal t => exact .literal (.literal h)

theorem fine_keys : (ks : List AstKey) → (∀ k ∈ ks, Words.usual.key k) → (∀ k ∈ ks.dropLast, Words.usual.keyBeforeDot k) →
    WordsFine (keyWords ks)
  | [], _, _ => .nil
  | [k], h, _ => .one (fine_key (h k (by simp))) nofun
  | a :: b :: ks, h, hd => by
    have ih := fine_keys (b :: ks) (fun k hk => h k (by simp [List.mem_cons.mp hk])) (fun k hk => hd k (by
      rw [List.dropLast_cons_of_ne_nil (by simp)]; simp [hk]))
    have ha := fine_key (h a (by simp))
    have hda := hd a (by simp)
    show WordsFine (.key a :: .mark DOT :: keyWords (b :: ks))
    refine ⟨fun w hw => ?_, nofun, fun x t y e => ?_⟩
    · rcases List.mem_cons.mp hw with rfl | hw
      · exact ha
      · rcases List.mem_cons.mp hw with rfl | hw
        · exact .mark (k := DOT) (by decide)
        · exact ih.token w hw
    · cases x with
      | nil =>
        simp only [List.nil_append, List.cons.injEq] at e
        obtain ⟨e, -⟩ := e
        cases e
        exact hda
      | cons x0 x =>
        simp only [List.cons_append, List.cons.injEq] at e
        obtain ⟨-, e⟩ := e
        cases x with
        | nil => cases e
        | cons x1 x =>
          simp only [List.cons_append, List.cons.injEq] at e
          exact ih.names x t y e.2

theorem fine_path {ks : List AstKey} (h : KeysFine Words.usual ks) : WordsFine (keyWords ks) :=
  fine_keys ks (fun k hk => (h.2 k hk).elim id before_key) h.1.2

theorem fine_mark {k : SyntaxKind} {ws : List Word} (h : markText k ≠ [] ∧ k ≠ DOT) (hs : WordsFine ws) : WordsFine (.mark k :: ws) :=
  .cons (.mark h.1) (fun e => h.2 (by cases e; rfl)) hs

mutual
theorem fine_node : {d : Nat} → (n : Node) → n.WF d → n.isPair = false → ValFine Words.usual (valOf n) → WordsFine n.words
  | _, .lit l k t tr, _, _, h => by
    rw [valOf, ValFine] at h
    rw [Node.words]
    exact (fine_comments l).app (.cons (.literal h) nofun (fine_trailing tr))
  | _, .array l s b tr, hw, _, h => by
    rw [valOf, ValFine] at h
    rw [Node.WF] at hw
    rw [Node.words]
    exact (((fine_comments l).app (fine_mark (by decide) (fine_trailing s))).app (fine_items b hw.2 h)).app
      (fine_mark (by decide) (fine_trailing tr))
  | _, .table l s b tr, hw, _, h => by
    rw [valOf, ValFine] at h
    rw [Node.WF] at hw
    rw [Node.words]
    exact (((fine_comments l).app (fine_mark (by decide) (fine_trailing s))).app (fine_pairs b hw.2 h)).app
      (fine_mark (by decide) (fine_trailing tr))
  | _, .pair .., _, hp, _ => by cases hp
theorem fine_items : {d : Nat} → {prev : Formatter.Prev} → (b : Body) → b.WF false d prev → itemsFine Words.usual (valsOf b) →
    WordsFine b.words
  | _, _, .nil, _, _ => by rw [Body.words]; exact .nil
  | _, _, .dangling n cs rest, hw, h => by
    rw [valsOf] at h
    rw [Body.WF] at hw
    rw [Body.words]
    exact (fine_comments cs).app (fine_items rest hw.2.2.2 h)
  | _, _, .item f n c rest, hw, h => by
    rw [valsOf, itemsFine] at h
    rw [Body.WF] at hw
    rw [Body.words]
    exact ((fine_node n hw.2.1 hw.1 h.1).app (fine_comma c)).app (fine_items rest hw.2.2.2 h.2)
theorem fine_pairs : {d : Nat} → {prev : Formatter.Prev} → (b : Body) → b.WF true d prev → pairsFine Words.usual (pairsOf b) →
    WordsFine b.words
  | _, _, .nil, _, _ => by rw [Body.words]; exact .nil
  | _, _, .dangling n cs rest, hw, h => by
    rw [pairsOf] at h
    rw [Body.WF] at hw
    rw [Body.words]
    exact (fine_comments cs).app (fine_pairs rest hw.2.2.2 h)
  | _, _, .item f (.pair l ks s v) c rest, hw, h => by
    rw [pairsOf, pairsFine] at h
    rw [Body.WF] at hw
    obtain ⟨-, hw, -, hr⟩ := hw
    rw [Node.WF] at hw
    rw [Body.words, Node.words]
    exact ((((fine_comments l).app (fine_path h.1.1)).app (fine_mark (by decide) (fine_node v hw.2.2.2 hw.2.1 h.1.2))).app
      (fine_comma c)).app (fine_pairs rest hr h.2)
  | _, _, .item f (.lit ..) c rest, hw, _ => by rw [Body.WF] at hw; cases hw.1
  | _, _, .item f (.array ..) c rest, hw, _ => by rw [Body.WF] at hw; cases hw.1
  | _, _, .item f (.table ..) c rest, hw, _ => by rw [Body.WF] at hw; cases hw.1
end

theorem fine_doc {d : Doc} (hw : d.WF) (h : pairsFine Words.usual (pairsOf d.body))
    (hs : ∀ s ∈ d.sections, KeysFine Words.usual s.header ∧ pairsFine Words.usual (pairsOf s.body)) : WordsFine d.words := by
  refine (fine_pairs _ hw.body h).app ?_
  have key : ∀ ss : List Section, (∀ s ∈ ss, s.WF) →
      (∀ s ∈ ss, KeysFine Words.usual s.header ∧ pairsFine Words.usual (pairsOf s.body)) →
      WordsFine (ss.map Section.words).flatten := by
    intro ss
    induction ss with
    | nil => intro _ _; exact .nil
    | cons s ss ih =>
      intro hw hs
      rw [List.map_cons, List.flatten_cons]
      refine WordsFine.app ?_ (ih (fun t h => hw t (by simp [h])) (fun t h => hs t (by simp [h])))
      obtain ⟨h1, h2⟩ := hs s (by simp)
      unfold Section.words
      exact (((fine_comments _).app (fine_mark (by split <;> decide) (fine_path h1))).app
        (fine_mark (by split <;> decide) (fine_trailing _))).app (fine_pairs _ (hw s (by simp)).body h2)
  exact key _ hw.sections hs

/-- A text of the grammar is a source as the theorems about formatting ask for, and is parsed as the document it is. -/
theorem file_source (G : Segmenter) {f : File} {t : Text} (h : FileText Words.usual f t) (hn : f.Nested maxRecursionDepth)
    (hlen : utf8Len t < 2 ^ 28) : ∃ p, Formatter.TomlSource G t p ∧ fileOf (docOf p.tree) = f := by
  obtain ⟨h1, p, h2, h3, rfl⟩ := file_parses G h hn hlen
  obtain ⟨hl, hwf⟩ := Formatter.doc_read h1 h2 h3
  obtain ⟨hf1, hf2⟩ := lines_fine h
  have hw := fine_doc hwf hf1 (fun s hs => hf2 (secOf s) (List.mem_map_of_mem hs))
  refine ⟨p, ⟨h1, h2, h3, fun w hm => ?_, fun a x b e => ?_⟩, rfl⟩
  · rw [← hl] at hm
    obtain ⟨w', hw', rfl⟩ := List.mem_map.mp hm
    exact hw.token w' hw'
  · rw [← hl] at e
    obtain ⟨a', r, e0, rfl, e1⟩ := List.map_eq_append_iff.mp e
    obtain ⟨w1, r1, rfl, e2, e3⟩ := List.map_eq_cons_iff.mp e1
    obtain ⟨w2, r2, rfl, e4, -⟩ := List.map_eq_cons_iff.mp e3
    have m1 : w1 ∈ (docOf p.tree).words := by rw [e0]; simp
    have m2 : w2 ∈ (docOf p.tree).words := by rw [e0]; simp
    have hw1 : w1 = .key (.bare x) := by
      cases w1 with
      | key k => cases k <;> cases e2; rfl
      | literal k u =>
        have := hwf.lits m1
        cases e2
        cases this
      | mark k =>
        have := hw.token _ m1
        cases e2
        cases this with
        | bare h => exact absurd rfl h.1
        | literal h => cases h
        | mark h => exact absurd rfl h
      | comment f u => cases e2
    have hw2 : w2 = .mark DOT := by
      cases w2 with
      | key k => cases k <;> cases e4
      | literal k u =>
        have := hwf.lits m2
        cases e4
        cases this
      | mark k => cases e4; rfl
      | comment f u => cases e4
    subst hw1 hw2
    exact hw.names a' x r2 e0

end Tombi.Reading
