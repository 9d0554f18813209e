import Verif.Proofs.TextPos
import Verif.Spec.SemanticTokens
/-! Lemmas for C90. -/
namespace Tombi.SemanticTokens
open Tombi Tombi.Spec

/-! ### texts without line terminators -/

theorem unbroken_cons {c : Char} {s : List Char} (h : c ≠ '\n') (h' : c = '\r' → ∀ b, s ≠ '\n' :: b) :
    unbroken (c :: s) = c :: unbroken s := by
  cases s with
  | nil => simp [unbroken, h]
  | cons d s =>
    rw [unbroken, if_neg h, if_neg]
    rintro ⟨rfl, rfl⟩
    exact h' rfl s rfl

theorem unbroken_lf (s : List Char) : unbroken ('\n' :: s) = unbroken s := by
  cases s with
  | nil => rfl
  | cons d s => rw [unbroken, if_pos rfl]

theorem unbroken_crlf (s : List Char) : unbroken ('\r' :: '\n' :: s) = unbroken s := by
  rw [unbroken, if_neg (by decide), if_pos ⟨rfl, rfl⟩, unbroken_lf]

theorem unbroken_append {a b : List Char} (h : ∀ x y, a = x ++ ['\r'] → b ≠ '\n' :: y) :
    unbroken (a ++ b) = unbroken a ++ unbroken b := by
  induction a with
  | nil => rfl
  | cons c a ih =>
    have hi := ih (fun x y e => h (c :: x) y (by rw [e]; rfl))
    by_cases hc : c = '\n'
    · subst hc
      rw [List.cons_append, unbroken_lf, unbroken_lf, hi]
    · by_cases hr : c = '\r' ∧ ∃ t, a = '\n' :: t
      · obtain ⟨rfl, t, rfl⟩ := hr
        rw [unbroken_lf] at hi
        rw [List.cons_append, List.cons_append, unbroken_crlf, unbroken_crlf]
        rw [List.cons_append, unbroken_lf] at hi
        exact hi
      · rw [List.cons_append, unbroken_cons hc, unbroken_cons hc, hi]
        · rfl
        · exact fun e t ht => hr ⟨e, t, ht⟩
        · intro e t ht
          cases a with
          | nil => exact h [] t (by rw [e]; rfl) ht
          | cons d a =>
            rw [List.cons_append] at ht
            injection ht with h1 h2
            exact hr ⟨e, a, by rw [h1]⟩

theorem unbroken_no_lf {a : List Char} (h : '\n' ∉ a) : unbroken a = a := by
  induction a with
  | nil => rfl
  | cons c a ih =>
    rw [unbroken_cons (fun e => h (by simp [e])) (fun _ b e => h (by simp [e])), ih (fun e => h (by simp [e]))]

theorem unbroken_term {t : List Char} (ht : Terminator t) : unbroken t = [] := by
  rcases ht with rfl | rfl <;> rfl

theorem unbroken_line {l t : List Char} (ht : Terminator t) (hl : '\n' ∉ l) (hcr : t = ['\n'] → ∀ l', l ≠ l' ++ ['\r'])
    (p : List Char) : unbroken (l ++ t ++ p) = l ++ unbroken p := by
  rw [List.append_assoc, unbroken_append, unbroken_append, unbroken_term ht, unbroken_no_lf hl]
  · rfl
  · rintro x y e rfl
    rcases ht with rfl | rfl
    · cases x with
      | nil => injection e with e1; exact absurd e1 (by decide)
      | cons c x => injection e with e1 e2; simp at e2
    · match x, e with
      | [], e => simp at e
      | [c], e => simp at e
      | c :: d :: x, e => simp at e
  · rintro x y e e2
    rcases ht with rfl | rfl
    · exact hcr rfl x e
    · simp at e2

/-- the code units of the lines before a line -/
def before (e : EncodingKind) (ls : List (List Char)) (n : Nat) : Nat := ((ls.take n).map (codeUnits e)).sum

theorem lines_units {s : List Char} {ls : List (List Char)} (h : Lines s ls) (e : EncodingKind) {pre post : List Char}
    (hs : s = pre ++ post) (hout : ∀ a b, pre = a ++ ['\r'] → post ≠ '\n' :: b) :
    codeUnits e (unbroken pre) = before e ls (pre.count '\n') + codeUnits e (lastLine pre) := by
  induction h generalizing pre post with
  | @last l hl =>
    subst hs
    have : '\n' ∉ pre := fun h => hl (by simp [h])
    rw [List.count_eq_zero.mpr this, lastLine_no_lf this, unbroken_no_lf this]
    simp [before]
  | @cons l t s ls hl ht hcr _ ih =>
    have inl : ∀ r, l = pre ++ r →
        codeUnits e (unbroken pre) = before e (l :: ls) (pre.count '\n') + codeUnits e (lastLine pre) := by
      intro r e
      have : '\n' ∉ pre := fun h => hl (by simp [e, h])
      rw [List.count_eq_zero.mpr this, lastLine_no_lf this, unbroken_no_lf this]
      simp [before]
    have past : ∀ p, pre = l ++ t ++ p → s = p ++ post →
        codeUnits e (unbroken pre) = before e (l :: ls) (pre.count '\n') + codeUnits e (lastLine pre) := by
      intro p e1 e2
      have := ih e2 (fun a b ha => hout (l ++ t ++ a) b (by rw [e1, ha]; simp))
      rw [e1, unbroken_line ht hl hcr, codeUnits_append, this, lastLine_after_term ht, List.count_append, List.count_append,
        List.count_eq_zero.mpr hl, term_count ht, show 0 + 1 + p.count '\n' = p.count '\n' + 1 by omega]
      simp only [before, List.take_succ_cons, List.map_cons, List.sum_cons]
      omega
    rw [List.append_assoc] at hs
    rcases List.append_eq_append_iff.mp hs with ⟨u, h1, h2⟩ | ⟨u, h1, h2⟩
    · rcases List.append_eq_append_iff.mp h2 with ⟨v, h3, h4⟩ | ⟨v, h3, h4⟩
      · exact past v (by rw [h1, h3, List.append_assoc]) h4
      · rcases ht with rfl | rfl
        · cases u with
          | nil => exact inl [] (by rw [h1]; simp)
          | cons c u =>
            simp only [List.cons_append, List.cons.injEq] at h3
            have := List.nil_eq_append_iff.mp h3.2
            exact past [] (by rw [h1, ← h3.1, this.1]; simp) (by rw [h4, this.2]; rfl)
        · match u with
          | [] => exact inl [] (by rw [h1]; simp)
          | [c] =>
            simp only [List.cons_append, List.cons.injEq, List.nil_append] at h3
            exfalso
            refine hout l s (by rw [h1, ← h3.1]) ?_
            rw [h4, ← h3.2]; rfl
          | c :: d :: u =>
            simp only [List.cons_append, List.cons.injEq] at h3
            have := List.nil_eq_append_iff.mp h3.2.2
            exact past [] (by rw [h1, ← h3.1, ← h3.2.1, this.1]; simp) (by rw [h4, this.2]; rfl)
    · exact inl u h1

/-! ### lengths -/

theorem graphemes_le (G : Segmenter) (l : List Char) : (G.graphemes l).length ≤ utf8Len l := by
  have key : ∀ gs : List (List Char), [] ∉ gs → gs.length ≤ utf8Len gs.flatten := by
    intro gs
    induction gs with
    | nil => intro _; exact Nat.zero_le _
    | cons g gs ih =>
      intro h
      have h1 := ih (fun hh => h (by simp [hh]))
      have h2 : g ≠ [] := fun hh => h (by simp [hh])
      rw [List.flatten_cons, utf8Len_append, List.length_cons]
      have h3 : 0 < utf8Len g := by
        cases g with
        | nil => exact absurd rfl h2
        | cons c g =>
          have h4 := utf8Len_append [c] g
          have h5 := Char.utf8Size_pos c
          have h6 : utf8Len [c] = c.utf8Size := by simp [utf8Len]
          rw [List.singleton_append] at h4
          omega
      omega
  have := key _ (G.ne_nil l)
  rwa [G.flatten_graphemes] at this

theorem units_split (e : EncodingKind) (gs : List (List Char)) (j : Nat) :
    codeUnits e (gs.take j).flatten + codeUnits e (gs.drop j).flatten = codeUnits e gs.flatten := by
  rw [← codeUnits_append, ← List.flatten_append, List.take_append_drop]

theorem before_succ (e : EncodingKind) {ls : List (List Char)} {n : Nat} {l : List Char} (h : ls[n]? = some l) :
    before e ls (n + 1) = before e ls n + codeUnits e l := by
  unfold before
  rw [List.take_succ, h]
  simp

theorem foldl_add (f : Nat → Nat) (xs : List Nat) (a : Nat) :
    xs.foldl (fun acc x => acc + f x) a = a + (xs.map f).sum := by
  induction xs generalizing a with
  | nil => rfl
  | cons x xs ih => rw [List.foldl_cons, ih, List.map_cons, List.sum_cons]; omega

/-- The length of a token is the number of code units of its text, without line terminators. -/
theorem tokenLength_eq {G : Segmenter} {src : List Char} {ls : List (List Char)} (hls : Lines src ls) (e : EncodingKind)
    {pre body : List Char} {n j n' j' : Nat} (h : Place G ls pre n j) (h' : Place G ls (pre ++ body) n' j')
    (hu : codeUnits e (unbroken pre) = before e ls n + codeUnits e (lastLine pre))
    (hu' : codeUnits e (unbroken (pre ++ body)) = before e ls n' + codeUnits e (lastLine (pre ++ body)))
    (hb : unbroken (pre ++ body) = unbroken pre ++ unbroken body) :
    tokenLength G ⟨⟨n, j⟩, ⟨n', j'⟩⟩ (LineIndex.new src e) = some (codeUnits e (unbroken body)) := by
  have hle := h.le h'
  obtain ⟨-, l, h2, h3, h4⟩ := h.facts
  obtain ⟨-, l', h2', h3', h4'⟩ := h'.facts
  rw [hb, codeUnits_append] at hu'
  unfold tokenLength
  by_cases hn : n = n'
  · subst hn
    rw [h2] at h2'
    cases h2'
    have hj : j ≤ j' := by
      unfold Position.le at hle
      simp at hle
      exact hle
    rw [if_pos rfl]
    simp only [lineText_lines hls e, h2, offsetCheckedSub, if_pos hj, Option.map_some]
    rw [show (LineIndex.new src e).encoding = e from rfl, foldl_measure, Nat.zero_add]
    congr 1
    have e1 : (G.graphemes l).take j' = (G.graphemes l).take j ++ ((G.graphemes l).drop j).take (j' - j) := by
      rw [← List.take_add, Nat.add_sub_of_le hj]
    rw [h4', e1, List.flatten_append, codeUnits_append, ← h4] at hu'
    omega
  · have hlt : n < n' := by
      unfold Position.le at hle
      simp at hle
      omega
    rw [if_neg hn]
    simp only
    rw [foldl_add, Nat.zero_add]
    congr 1
    have first : lineLength G ⟨⟨n, j⟩, ⟨n', j'⟩⟩ (LineIndex.new src e) n + codeUnits e (lastLine pre) = codeUnits e l := by
      unfold lineLength
      simp only [lineText_lines hls e, h2, Option.map_some, Option.getD_some, if_true, if_neg hn]
      rw [show (LineIndex.new src e).encoding = e from rfl, foldl_measure, Nat.zero_add, List.take_of_length_le, h4]
      · have := units_split e (G.graphemes l) j
        rw [G.flatten_graphemes] at this
        omega
      · have := graphemes_le G l
        rw [List.length_drop]; omega
    have middle : ∀ i m, ls[i]? = some m → n < i → i < n' →
        lineLength G ⟨⟨n, j⟩, ⟨n', j'⟩⟩ (LineIndex.new src e) i = codeUnits e m := by
      intro i m hm h5 h6
      unfold lineLength
      simp only [lineText_lines hls e, hm, Option.map_some, Option.getD_some, if_neg (show ¬ i = n by omega),
        if_neg (show ¬ i = n' by omega), List.drop_zero]
      rw [show (LineIndex.new src e).encoding = e from rfl, foldl_measure, Nat.zero_add,
        List.take_of_length_le (graphemes_le G m), G.flatten_graphemes]
    have last : lineLength G ⟨⟨n, j⟩, ⟨n', j'⟩⟩ (LineIndex.new src e) n' = codeUnits e (lastLine (pre ++ body)) := by
      unfold lineLength
      simp only [lineText_lines hls e, h2', Option.map_some, Option.getD_some, if_neg (show ¬ n' = n by omega), if_true,
        List.drop_zero]
      rw [show (LineIndex.new src e).encoding = e from rfl, foldl_measure, Nat.zero_add, h4']
    have sum : ∀ k, n + (k + 1) ≤ n' →
        ((List.range' n (k + 1)).map (lineLength G ⟨⟨n, j⟩, ⟨n', j'⟩⟩ (LineIndex.new src e))).sum + before e ls n
          + codeUnits e (lastLine pre) = before e ls (n + (k + 1)) := by
      intro k
      induction k with
      | zero =>
        intro _
        rw [before_succ e h2]
        simp only [Nat.zero_add, List.range'_one, List.map_cons, List.map_nil, List.sum_cons, List.sum_nil]
        omega
      | succ k ih =>
        intro hk
        have hi := ih (by omega)
        have hlen : n' < ls.length := by
          have := List.getElem?_eq_some_iff.mp h2'
          exact this.1
        have hm : ls[n + (k + 1)]? = some (ls[n + (k + 1)]'(by omega)) := List.getElem?_eq_getElem _
        have e1 := before_succ e hm
        rw [List.range'_concat, List.map_append, List.sum_append, List.map_singleton, List.sum_singleton, Nat.one_mul,
          middle _ _ hm (by omega) (by omega), show n + (k + 1 + 1) = n + (k + 1) + 1 by omega, e1]
        omega
    have e2 : n' + 1 - n = (n' - n - 1 + 1) + 1 := by omega
    rw [e2, List.range'_concat, List.map_append, List.sum_append, List.map_singleton, List.sum_singleton, Nat.one_mul,
      show n + (n' - n - 1 + 1) = n' by omega, last]
    have := sum (n' - n - 1) (by omega)
    rw [show n + (n' - n - 1 + 1) = n' by omega] at this
    omega

/-! ### positions -/

theorem cut_place {G : Segmenter} (hG : Segments G) {src a : List Char} {ls : List (List Char)} (hls : Lines src ls)
    (h : Cut G src a) : Place G ls a (graphemePos G a).line (graphemePos G a).column := by
  obtain ⟨b, rfl, h⟩ := h
  exact boundary_place hG h hls

theorem cut_lsp {G : Segmenter} (hG : Segments G) (e : EncodingKind) {src a : List Char} (h : Cut G src a) :
    (graphemePos G a).intoLsp G (LineIndex.new src e) = ⟨a.count '\n', codeUnits e (lastLine a)⟩ := by
  obtain ⟨ls, hls⟩ := lines_exist src
  exact (cut_place hG hls h).intoLsp hls

theorem cut_units {G : Segmenter} (hG : Segments G) (e : EncodingKind) {src a : List Char} {ls : List (List Char)}
    (hls : Lines src ls) (h : Cut G src a) :
    codeUnits e (unbroken a) = before e ls (graphemePos G a).line + codeUnits e (lastLine a) := by
  obtain ⟨b, rfl, h⟩ := h
  exact lines_units hls e rfl (boundary_not_inside hG h)

theorem cut_nil (G : Segmenter) (src : List Char) : Cut G src [] := by
  have : G.graphemes [] = [] := by
    cases h : G.graphemes [] with
    | nil => rfl
    | cons g gs =>
      have h1 := G.flatten_graphemes []
      rw [h, List.flatten_cons] at h1
      have h2 := (List.append_eq_nil_iff.mp h1).1
      exact absurd (by rw [h, h2]; simp) (G.ne_nil [])
  exact ⟨src, rfl, by unfold Boundary; rw [this]; rfl⟩

theorem length_part {G : Segmenter} (hG : Segments G) (e : EncodingKind) {src pre body : List Char}
    (h : Cut G src pre) (h' : Cut G src (pre ++ body)) :
    tokenLength G ⟨graphemePos G pre, graphemePos G (pre ++ body)⟩ (LineIndex.new src e)
      = some (codeUnits e (unbroken body)) := by
  obtain ⟨ls, hls⟩ := lines_exist src
  refine tokenLength_eq hls e (cut_place hG hls h) (cut_place hG hls h') (cut_units hG e hls h) (cut_units hG e hls h') ?_
  apply unbroken_append
  intro x y ex ey
  obtain ⟨b, hb, hB⟩ := h
  obtain ⟨b', hb', -⟩ := h'
  have : b = body ++ b' := by rw [hb, List.append_assoc] at hb'; exact List.append_cancel_left hb'
  exact boundary_not_inside hG hB x (y ++ b') ex (by rw [this, ey]; rfl)

theorem delta_eq {G : Segmenter} (hG : Segments G) (e : EncodingKind) {src a u : List Char}
    (h : Cut G src a) (h' : Cut G src (a ++ u)) :
    deltaLineAndStart G (graphemePos G a) (graphemePos G (a ++ u)) (LineIndex.new src e)
      = some (u.count '\n', if u.count '\n' = 0 then codeUnits e u else codeUnits e (lastLine (a ++ u))) := by
  unfold deltaLineAndStart
  simp only [cut_lsp hG e h, cut_lsp hG e h', offsetCheckedSub, List.count_append]
  rw [if_pos (by omega), Option.bind_some, Nat.add_sub_cancel_left]
  by_cases hu : u.count '\n' = 0
  · rw [if_pos hu, if_pos hu, lastLine_append_no_lf a (List.count_eq_zero.mp hu), codeUnits_append, if_pos (by omega),
      Nat.add_sub_cancel_left]
    rfl
  · rw [if_neg hu, if_neg hu]
    rfl

theorem sub_left (a b : Nat) : offsetCheckedSub (a + b) a = some b := by
  unfold offsetCheckedSub
  rw [if_pos (by omega), Nat.add_sub_cancel_left]

theorem legend_index (t : TokenType) : legend[t.index]? = some t.name := by cases t <;> rfl

theorem addAll_tokens {G : Segmenter} {ix : LineIndex} (es : List Element) (b : Builder) (ts : List SemanticToken) :
    Builder.addAll G ix ⟨ts ++ b.tokens, b.last⟩ es
      = (Builder.addAll G ix b es).map fun c => ⟨ts ++ c.tokens, c.last⟩ := by
  induction es generalizing b with
  | nil => rfl
  | cons x es ih =>
    have key : Builder.add G ix ⟨ts ++ b.tokens, b.last⟩ x
        = (b.add G ix x).map fun c => ⟨ts ++ c.tokens, c.last⟩ := by
      cases x with
      | token t r =>
        simp only [Builder.add, Builder.addToken]
        cases deltaLineAndStart G b.last.start r.start ix with
        | none => rfl
        | some d =>
          cases tokenLength G r ix with
          | none => rfl
          | some n => simp
      | directive c d =>
        simp only [Builder.add, Builder.addCommentDirective]
        cases deltaLineAndStart G b.last.start c.start ix with
        | none => rfl
        | some dl =>
          simp only [Option.bind_some]
          cases offsetCheckedSub (d.intoLsp G ix).start.character (c.intoLsp G ix).start.character with
          | none => rfl
          | some p =>
            simp only [Option.bind_some]
            cases offsetCheckedSub (d.intoLsp G ix).stop.character (d.intoLsp G ix).start.character with
            | none => rfl
            | some q =>
              simp only [Option.bind_some]
              cases offsetCheckedSub (c.intoLsp G ix).stop.character (d.intoLsp G ix).stop.character with
              | none => rfl
              | some r => simp
    rw [Builder.addAll, Builder.addAll, key]
    cases hb : b.add G ix x with
    | none => rfl
    | some c =>
      simp only [Option.map_some, Option.bind_some]
      exact ih c

theorem run_decode {G : Segmenter} (hG : Segments G) (e : EncodingKind) (src : List Char) :
    ∀ (ms : List Mark) (a : List Char) (dir : Bool) (r : Range) (ch : Nat), Cut G src a → r.start = graphemePos G a →
      (dir = false → ch = codeUnits e (lastLine a)) → InOrder a dir ms → (∀ m ∈ ms, m.In G src) →
      ∃ c, Builder.addAll G (LineIndex.new src e) ⟨[], r⟩ (ms.map (Mark.element G)) = some c
        ∧ decode legend (a.count '\n') ch c.tokens = (ms.flatMap Mark.parts).map (Part.shown e) := by
  intro ms
  induction ms with
  | nil => intro a dir r ch _ _ _ _ _; exact ⟨⟨[], r⟩, rfl, rfl⟩
  | cons m ms ih =>
    intro a dir r ch ha hr hch hord hin
    obtain ⟨⟨u, hu, hd⟩, hord'⟩ := hord
    have hm := hin m (by simp)
    have hrest : ∀ x ∈ ms, x.In G src := fun x hx => hin x (by simp [hx])
    have start : ∀ pre, pre = a ++ u → (if u.count '\n' = 0 then ch + (if u.count '\n' = 0 then codeUnits e u else codeUnits e (lastLine (a ++ u))) else
        (if u.count '\n' = 0 then codeUnits e u else codeUnits e (lastLine (a ++ u)))) = codeUnits e (lastLine pre) := by
      rintro pre rfl
      by_cases h0 : u.count '\n' = 0
      · have hf : dir = false := by
          cases dir with
          | false => rfl
          | true => exact absurd (hd rfl) (List.count_eq_zero.mp h0)
        simp only [if_pos h0]
        rw [hch hf, lastLine_append_no_lf a (List.count_eq_zero.mp h0), codeUnits_append]
      · simp only [if_neg h0]
    cases m with
    | part p =>
      obtain ⟨h1, h2⟩ := hm
      have hu : p.pre = a ++ u := hu
      have hdelta := delta_eq hG e (u := u) ha (by rw [← hu]; exact h1)
      rw [← hu] at hdelta
      obtain ⟨c, hc1, hc2⟩ := ih p.pre false ⟨graphemePos G p.pre, graphemePos G (p.pre ++ p.body)⟩
        (codeUnits e (lastLine p.pre)) h1 rfl (fun _ => rfl) hord' hrest
      have hadd : (Builder.mk [] r).add G (LineIndex.new src e) (Mark.element G (.part p))
          = some ⟨[⟨u.count '\n', if u.count '\n' = 0 then codeUnits e u else codeUnits e (lastLine p.pre),
              codeUnits e (unbroken p.body), p.type.index⟩], ⟨graphemePos G p.pre, graphemePos G (p.pre ++ p.body)⟩⟩ := by
        simp only [Mark.element, Builder.add, Builder.addToken, hr, hdelta, Option.bind_some, length_part hG e h1 h2,
          Option.map_some, List.nil_append]
      refine ⟨⟨[⟨u.count '\n', if u.count '\n' = 0 then codeUnits e u else codeUnits e (lastLine p.pre),
              codeUnits e (unbroken p.body), p.type.index⟩] ++ c.tokens, c.last⟩, ?_, ?_⟩
      · rw [List.map_cons, Builder.addAll, hadd, Option.bind_some]
        have := addAll_tokens (G := G) (ix := LineIndex.new src e) (ms.map (Mark.element G))
          ⟨[], ⟨graphemePos G p.pre, graphemePos G (p.pre ++ p.body)⟩⟩
          [⟨u.count '\n', if u.count '\n' = 0 then codeUnits e u else codeUnits e (lastLine p.pre),
              codeUnits e (unbroken p.body), p.type.index⟩]
        rw [List.append_nil, hc1, Option.map_some] at this
        exact this
      · have hs := start p.pre hu
        rw [← hu] at hs
        simp only [List.singleton_append, decode, legend_index]
        rw [hs, show a.count '\n' + u.count '\n' = p.pre.count '\n' by rw [hu, List.count_append], hc2]
        rfl
    | comment pre o w t =>
      obtain ⟨h1, h2, h3, h4, h5⟩ := hm
      have hu : pre = a ++ u := hu
      have hdelta := delta_eq hG e (u := u) ha (by rw [← hu]; exact h1)
      rw [← hu] at hdelta
      have ho : '\n' ∉ o := fun h => h5 (by simp [h])
      have hw : '\n' ∉ w := fun h => h5 (by simp [h])
      have ht : '\n' ∉ t := fun h => h5 (by simp [h])
      have l1 : lastLine (pre ++ o) = lastLine pre ++ o := lastLine_append_no_lf pre ho
      have l2 : lastLine (pre ++ o ++ w) = lastLine pre ++ o ++ w := by rw [lastLine_append_no_lf _ hw, l1]
      have l3 : lastLine (pre ++ o ++ w ++ t) = lastLine pre ++ o ++ w ++ t := by rw [lastLine_append_no_lf _ ht, l2]
      obtain ⟨c, hc1, hc2⟩ := ih pre true ⟨graphemePos G pre, graphemePos G (pre ++ o ++ w ++ t)⟩
        (codeUnits e (lastLine pre) + codeUnits e o + codeUnits e w) h1 rfl (fun h => by cases h) hord' hrest
      have hadd : (Builder.mk [] r).add G (LineIndex.new src e) (Mark.element G (.comment pre o w t))
          = some ⟨[⟨u.count '\n', if u.count '\n' = 0 then codeUnits e u else codeUnits e (lastLine pre),
              codeUnits e o, TokenType.comment.index⟩, ⟨0, codeUnits e o, codeUnits e w, TokenType.keyword.index⟩,
              ⟨0, codeUnits e w, codeUnits e t, TokenType.comment.index⟩],
              ⟨graphemePos G pre, graphemePos G (pre ++ o ++ w ++ t)⟩⟩ := by
        simp only [Mark.element, Builder.add, Builder.addCommentDirective, hr, hdelta, Option.bind_some, Range.intoLsp,
          cut_lsp hG e h1, cut_lsp hG e h2, cut_lsp hG e h3, cut_lsp hG e h4, l1, l2, l3, codeUnits_append,
          sub_left, Option.map_some, List.nil_append]
      refine ⟨⟨[⟨u.count '\n', if u.count '\n' = 0 then codeUnits e u else codeUnits e (lastLine pre),
              codeUnits e o, TokenType.comment.index⟩, ⟨0, codeUnits e o, codeUnits e w, TokenType.keyword.index⟩,
              ⟨0, codeUnits e w, codeUnits e t, TokenType.comment.index⟩] ++ c.tokens, c.last⟩, ?_, ?_⟩
      · rw [List.map_cons, Builder.addAll, hadd, Option.bind_some]
        have := addAll_tokens (G := G) (ix := LineIndex.new src e) (ms.map (Mark.element G))
          ⟨[], ⟨graphemePos G pre, graphemePos G (pre ++ o ++ w ++ t)⟩⟩
          [⟨u.count '\n', if u.count '\n' = 0 then codeUnits e u else codeUnits e (lastLine pre),
              codeUnits e o, TokenType.comment.index⟩, ⟨0, codeUnits e o, codeUnits e w, TokenType.keyword.index⟩,
              ⟨0, codeUnits e w, codeUnits e t, TokenType.comment.index⟩]
        rw [List.append_nil, hc1, Option.map_some] at this
        exact this
      · have hs := start pre hu
        rw [← hu] at hs
        simp only [List.cons_append, List.nil_append, decode, legend_index, if_true, Nat.add_zero]
        rw [hs, show a.count '\n' + u.count '\n' = pre.count '\n' by rw [hu, List.count_append], hc2]
        simp only [List.flatMap_cons, Mark.parts, List.cons_append, List.nil_append, List.map_cons, Part.shown, l1, l2,
          codeUnits_append, List.count_append, List.count_eq_zero.mpr ho, List.count_eq_zero.mpr hw, Nat.add_zero,
          unbroken_no_lf ho, unbroken_no_lf hw, unbroken_no_lf ht]

end Tombi.SemanticTokens
