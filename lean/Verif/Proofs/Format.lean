import Verif.Model.Format
import Verif.Spec.Format
import Verif.Spec.Strings
import Verif.Proofs.TomlText2
import Verif.Proofs.LexStrings
/-! Quote styles and comment texts. -/
namespace Tombi
open Spec TomlText Format

/-! ### requoting -/

theorem literalLoop_single (out : List Char) (c : Char) (cs : List Char) :
    TomlText.literalLoop false out (c :: cs)
      = if isForbidden c then .error .InvalidControlCharacter else TomlText.literalLoop false (out ++ [c]) cs := by
  rw [TomlText.literalLoop.eq_def]
  split
  · next heq => cases heq
  · next heq =>
    cases heq
    have : isForbidden '\r' = true := by decide
    simp [this]
  · next heq =>
    cases heq
    simp

theorem basic_eq_literal (v : TomlVersion) (s : List Char) (h : '\\' ∉ s) :
    ∀ fuel out, s.length < fuel → TomlText.basicLoop v false fuel out s = TomlText.literalLoop false out s := by
  induction s with
  | nil => intro fuel out hf; cases fuel with
    | zero => simp at hf
    | succ n => rfl
  | cons c cs ih =>
    intro fuel out hf
    cases fuel with
    | zero => simp at hf
    | succ n =>
      have hc : c ≠ '\\' := fun e => h (by simp [e])
      have hcs : '\\' ∉ cs := fun e => h (by simp [e])
      simp only [List.length_cons] at hf
      rw [TomlText.basicLoop]
      simp only [TomlText.basicStep, if_neg hc]
      have hno : ¬ ((c = '\r' ∨ c = '\n') ∧ (false : Bool) = true) := by simp
      rw [if_neg hno]
      rw [literalLoop_single]
      by_cases hf' : isForbidden c = true
      · simp [hf']
      · simp only [hf']
        exact ih hcs n _ (by omega)

theorem parseBasic_eq_parseLiteral (v : TomlVersion) {s : List Char} (h : '\\' ∉ s) :
    parseBasicString s v false = parseLiteralString s false :=
  basic_eq_literal v s h _ _ (by omega)

theorem render_no_escape {items : List Item} (hi : ∀ i ∈ items, i.single) (h : '\\' ∉ render items) :
    '"' ∉ render items ∧ '\n' ∉ render items ∧ '\r' ∉ render items := by
  induction items with
  | nil => simp [render]
  | cons i is ih =>
    simp only [render, List.mem_append, not_or] at h ⊢
    obtain ⟨h1, h2, h3⟩ := ih (fun j hj => hi j (by simp [hj])) h.2
    have hi1 := hi i (by simp)
    cases i with
    | quote => exact absurd hi1 (by simp [Item.single])
    | esc e => exact absurd h.1 (by simp [Item.text])
    | chr c =>
      simp only [Item.single] at hi1
      refine ⟨⟨?_, h1⟩, ⟨?_, h2⟩, ⟨?_, h3⟩⟩ <;> simp only [Item.text, List.mem_singleton] <;> intro e
      · exact hi1.1 e.symm
      · exact hi1.2.2.1 e.symm
      · exact hi1.2.2.2 e.symm

theorem render_chrs (s : List Char) : render (s.map Item.chr) = s := by
  induction s with
  | nil => rfl
  | cons c cs ih => simp [render, Item.text, ih]

theorem basicString_of_plain {s : List Char} (h1 : '"' ∉ s) (h2 : '\\' ∉ s) (h3 : '\n' ∉ s) (h4 : '\r' ∉ s) :
    BasicString ('"' :: (s ++ ['"'])) := by
  refine ⟨s.map Item.chr, ?_, by rw [render_chrs]⟩
  intro i hi
  obtain ⟨c, hc, rfl⟩ := List.mem_map.mp hi
  refine ⟨?_, ?_, ?_, ?_⟩ <;> rintro rfl <;> contradiction

/-! ### comments are lexed as comments -/

theorem accepts_comment {body post : List Char} (hb : '\n' ∉ body ∧ '\r' ∉ body)
    (hp : ∀ c, post.head? = some c → c = '\n' ∨ c = '\r') : Accepts .COMMENT ('#' :: body) post := by
  intro c hc
  have hc' : c.rest = '#' :: (body ++ post) := by rw [hc]; simp
  obtain ⟨h1, h2, h3⟩ := Adv.bump_cons hc'
  have hd : c.bump.dispatch = c.bump.lineComment := by
    unfold Cursor.dispatch
    rw [h3]
    have e1 : isWhitespace '#' = false := by decide
    have e2 : isLineBreak '#' = false := by decide
    simp [e1, e2]
  have htake : (body ++ post).takeWhile (fun x => !(x == '\n' || x == '\r')) = body := by
    have hall : ∀ x ∈ body, (!(x == '\n' || x == '\r')) = true := by
      intro x hx
      have n1 : x ≠ '\n' := by rintro rfl; exact hb.1 hx
      have n2 : x ≠ '\r' := by rintro rfl; exact hb.2 hx
      simp [n1, n2]
    rw [List.takeWhile_append_of_pos hall]
    cases post with
    | nil => simp
    | cons x xs =>
      rcases hp x rfl with rfl | rfl <;> simp
  obtain ⟨h4, h5⟩ := Adv.eatWhile (fun x => !(x == '\n' || x == '\r')) c.bump
  rw [h2, htake] at h4
  refine ⟨c.bump.eatWhile (fun x => !(x == '\n' || x == '\r')), by simpa using h1.trans h4, ?_⟩
  rw [advance_cons hc', hd]
  rfl

/-! ### prefixes and trimming -/

theorem stripPrefix_append (p s : List Char) : stripPrefix p (p ++ s) = some s := by
  induction p with
  | nil => cases s <;> rfl
  | cons c p ih => simp [stripPrefix, ih]

theorem stripPrefix_some {p s r : List Char} : stripPrefix p s = some r ↔ s = p ++ r := by
  constructor
  · intro h
    induction p generalizing s with
    | nil => cases s <;> simpa [stripPrefix] using h
    | cons c p ih =>
      cases s with
      | nil => simp [stripPrefix] at h
      | cons d s =>
        rw [stripPrefix] at h
        split at h
        · next e => subst e; rw [List.cons_append, ih h]
        · cases h
  · rintro rfl; exact stripPrefix_append p r

theorem stripPrefix_none {p s : List Char} (h : ¬ p <+: s) : stripPrefix p s = none := by
  cases he : stripPrefix p s with
  | none => rfl
  | some r => exact absurd ⟨r, (stripPrefix_some.mp he).symm⟩ h

/-- the two halves of `trim`, on a list and its reverse -/
theorem dropWhile_idem {α : Type} (p : α → Bool) (l : List α) : (l.dropWhile p).dropWhile p = l.dropWhile p := by
  induction l with
  | nil => rfl
  | cons x xs ih =>
    by_cases h : p x = true
    · simp [h, ih]
    · simp [h]

theorem dropWhile_head {α : Type} (p : α → Bool) (l : List α) (x : α) (h : (l.dropWhile p).head? = some x) :
    p x = false := by
  induction l with
  | nil => cases h
  | cons y ys ih =>
    by_cases hy : p y = true
    · rw [List.dropWhile_cons_of_pos hy] at h; exact ih h
    · rw [List.dropWhile_cons_of_neg hy] at h
      simp at h; subst h; simpa using hy

theorem dropWhile_of_head? {α : Type} {p : α → Bool} {l : List α} (h : ∀ x, l.head? = some x → p x = false) :
    l.dropWhile p = l := by
  cases l with
  | nil => rfl
  | cons x xs => simp [h x rfl]

theorem dropWhile_append_all {α : Type} {p : α → Bool} {a b : List α} (h : ∀ x ∈ a, p x = true) :
    (a ++ b).dropWhile p = b.dropWhile p := by
  induction a with
  | nil => rfl
  | cons x xs ih => simp [h x (by simp), ih fun y hy => h y (by simp [hy])]

theorem dropWhile_append_of_ne {α : Type} {p : α → Bool} {a b : List α} (h : a.dropWhile p ≠ []) :
    (a ++ b).dropWhile p = a.dropWhile p ++ b := by
  induction a with
  | nil => exact absurd rfl h
  | cons x xs ih =>
    by_cases hx : p x = true
    · rw [List.dropWhile_cons_of_pos hx] at h ⊢
      rw [List.cons_append, List.dropWhile_cons_of_pos hx]
      exact ih h
    · rw [List.cons_append, List.dropWhile_cons_of_neg hx, List.dropWhile_cons_of_neg hx]; rfl

/-- a trailing part that is dropped from the end -/
theorem dropWhile_end {α : Type} (p : α → Bool) (l : List α) :
    ∃ t, l = (l.reverse.dropWhile p).reverse ++ t ∧ ∀ x ∈ t, p x = true := by
  refine ⟨(l.reverse.takeWhile p).reverse, ?_, ?_⟩
  · rw [← List.reverse_append, List.takeWhile_append_dropWhile, List.reverse_reverse]
  · intro x hx
    have := List.mem_reverse.mp hx
    have hall := List.all_takeWhile (l := l.reverse) (p := p)
    exact List.all_eq_true.mp hall x this

theorem trim_idem (s : List Char) : trim (trim s) = trim s := by
  have h1 : trimStart (trim s) = trim s := by
    refine dropWhile_of_head? fun x hx => ?_
    obtain ⟨t, ht, -⟩ := dropWhile_end charIsWhitespace (trimStart s)
    refine dropWhile_head charIsWhitespace s x ?_
    show (trimStart s).head? = some x
    rw [ht]
    unfold trim at hx
    rw [List.head?_append, hx]; rfl
  unfold trim at h1 ⊢
  rw [h1, List.reverse_reverse, dropWhile_idem]

theorem trim_drop_spaces (s : List Char) : trim (s.dropWhile (· == ' ')) = trim s := by
  have : trimStart (s.dropWhile (· == ' ')) = trimStart s := by
    induction s with
    | nil => rfl
    | cons c cs ih =>
      by_cases hc : c = ' '
      · subst hc
        simp only [trimStart] at ih ⊢
        rw [List.dropWhile_cons_of_pos (by simp), ih, List.dropWhile_cons_of_pos (by decide)]
      · rw [List.dropWhile_cons_of_neg (by simpa using hc)]
  unfold trim; rw [this]

/-! ### plain comments -/

theorem isBlank_iff {c : Char} : isBlank c = true ↔ c = ' ' ∨ c = '\t' := by simp [isBlank]
theorem isAsciiWs_iff {c : Char} :
    isAsciiWhitespace c = true ↔ c = ' ' ∨ c = '\t' ∨ c = '\n' ∨ c = '\x0c' ∨ c = '\r' := by
  simp [isAsciiWhitespace, or_assoc]

theorem commentText_parts {strip : Bool} {blanks words : List Char} (hb : Blanks blanks) (hw : words ≠ [])
    (hs : words.head? ≠ some ' ' ∧ words.head? ≠ some '\t') (c : Char) (r : List Char)
    (h : blanks ++ words = c :: r) :
    commentText strip c r = ' ' :: ((if strip then [] else blanks.tail) ++ words) := by
  have hhead : ∀ x, words.head? = some x → isBlank x = false := by
    intro x hx
    rw [Bool.eq_false_iff]
    intro e
    rcases isBlank_iff.mp e with rfl | rfl
    · exact hs.1 hx
    · exact hs.2 hx
  cases blanks with
  | nil =>
    rw [List.nil_append] at h
    subst h
    have := hhead c rfl
    simp [commentText, this]
  | cons b bs =>
    rw [List.cons_append] at h
    injection h with e1 e2
    subst e1 e2
    have hbl : isBlank b = true := isBlank_iff.mpr (hb b (by simp))
    have hall : ∀ x ∈ bs, isBlank x = true := fun x hx => isBlank_iff.mpr (hb x (by simp [hx]))
    unfold commentText
    rw [hbl]
    simp only [Bool.not_true]
    rw [if_neg (by simp)]
    cases strip with
    | false => simp
    | true =>
      simp only [if_pos]
      rw [dropWhile_append_all hall, dropWhile_of_head? hhead]
      simp

theorem commentHashes_parts {strip : Bool} {n : Nat} {rest : List Char} (hr : rest.head? ≠ some '#') :
    commentHashes strip '#' (List.replicate n '#' ++ rest)
      = List.replicate (n + 1) '#' ++ (match rest with | [] => [] | c :: r => commentText strip c r) := by
  induction n with
  | zero =>
    cases rest with
    | nil => rfl
    | cons c r =>
      have : c ≠ '#' := by rintro rfl; exact hr rfl
      show commentHashes strip '#' (c :: r) = _
      rw [commentHashes, if_pos rfl]
      cases r <;> simp [commentHashes, this]
  | succ n ih =>
    rw [List.replicate_succ, List.cons_append, commentHashes, if_pos rfl, ih]
    rfl

theorem plainComment_bang (strip : Bool) (c : Char) (r : List Char) :
    plainComment strip ('!' :: c :: r) = '!' :: commentText strip c r := by
  rw [plainComment.eq_def]; simp
theorem plainComment_hash (strip : Bool) (r : List Char) :
    plainComment strip ('#' :: r) = commentHashes strip '#' r := by
  rw [plainComment.eq_def]; simp
theorem plainComment_other (strip : Bool) {c : Char} (r : List Char) (h1 : c ≠ '!') (h2 : c ≠ '#') :
    plainComment strip (c :: r) = commentText strip c r := by
  rw [plainComment.eq_def]; simp [h1, h2]

theorem parts_trim {text m b w t : List Char} (h : CommentParts text m b w t) :
    trimAsciiEnd text = '#' :: (m ++ b ++ w) := by
  have ht : ∀ x ∈ t.reverse, isAsciiWhitespace x = true := fun x hx =>
    isAsciiWs_iff.mpr (h.trail_ok x (List.mem_reverse.mp hx))
  have hlast : ∀ x, ('#' :: (m ++ b ++ w)).reverse.head? = some x → isAsciiWhitespace x = false := by
    intro x hx
    rw [List.head?_reverse] at hx
    cases hw : w with
    | nil =>
      have hb := h.no_words hw
      rw [hw, hb] at hx
      simp only [List.append_nil] at hx
      have hx' : x = '#' ∨ x = '!' := by
        cases h.marker_ok with
        | none => simp at hx; exact .inl hx.symm
        | bang => simp at hx; exact .inr hx.symm
        | hashes n =>
          have := List.mem_of_getLast? hx
          simp [List.mem_replicate] at this
          exact .inl this
      rcases hx' with rfl | rfl <;> decide
    | cons c cs =>
      have hne : w ≠ [] := by rw [hw]; simp
      have e : ('#' :: (m ++ b ++ w)).getLast? = w.getLast? := by
        rw [← List.cons_append, List.getLast?_append]
        cases hl : w.getLast? with
        | none => exact absurd (List.getLast?_eq_none_iff.mp hl) hne
        | some y => rfl
      rw [e] at hx
      have := h.words_end x hx
      rw [Bool.eq_false_iff]
      intro hh
      exact this (fun y hy => by simp at hy; subst hy; exact isAsciiWs_iff.mp hh)
  unfold trimAsciiEnd
  have e : text = '#' :: (m ++ b ++ w) ++ t := by rw [h.text_eq]; simp
  rw [e, List.reverse_append, dropWhile_append_all ht, dropWhile_of_head? hlast, List.reverse_reverse]

theorem formatPlain_parts {strip : Bool} {text m b w t : List Char} (h : CommentParts text m b w t) :
    formatPlain strip text = some (tidyComment strip m b w) := by
  unfold formatPlain
  rw [parts_trim h]
  simp only [tidyComment]
  by_cases hw : w = []
  · have hb := h.no_words hw
    rw [if_pos hw]
    subst hw; rw [hb]
    simp only [List.append_nil]
    congr 2
    cases h.marker_ok with
    | none => rfl
    | bang => rfl
    | hashes n =>
      have := commentHashes_parts (strip := strip) (n := n) (rest := []) (by simp)
      rw [List.replicate_succ, plainComment_hash]
      simpa [List.replicate_succ] using this
  · rw [if_neg hw]
    congr 2
    have hne : b ++ w ≠ [] := by simp [hw]
    obtain ⟨c, r, hcr⟩ := List.exists_cons_of_ne_nil hne
    have hct := commentText_parts (strip := strip) h.blanks_ok hw h.words_start c r hcr
    rw [List.append_assoc, hcr]
    have hblank : ∀ x y ys, b = x :: ys → y = c → y = ' ' ∨ y = '\t' := by
      intro x y ys hb' hy
      rw [hb', List.cons_append] at hcr
      injection hcr with e1 _
      rw [hy, ← e1]
      exact h.blanks_ok x (by rw [hb']; simp)
    cases h.marker_ok with
    | none =>
      have hc : c ≠ '!' ∧ c ≠ '#' := by
        cases hb' : b with
        | nil =>
          rw [hb', List.nil_append] at hcr
          have := h.marker_max hb'
          rw [hcr] at this
          simp at this
          exact ⟨this.2, this.1⟩
        | cons x ys =>
          have := hblank x c ys hb' rfl
          constructor <;> rintro rfl <;> revert this <;> decide
      show plainComment strip (c :: r) = _
      rw [plainComment_other _ _ hc.1 hc.2, hct]
      rfl
    | bang =>
      show plainComment strip ('!' :: c :: r) = _
      rw [plainComment_bang, hct]
      rfl
    | hashes n =>
      have hc : c ≠ '#' := by
        cases hb' : b with
        | nil =>
          rw [hb', List.nil_append] at hcr
          have := (h.marker_max hb').1
          rw [hcr] at this
          rcases this with this | this
          · simpa using this
          · rw [List.replicate_succ] at this
            exact absurd (List.cons.inj this).1 (by decide)
        | cons x ys =>
          have := hblank x c ys hb' rfl
          rintro rfl; revert this; decide
      have e := commentHashes_parts (strip := strip) (n := n) (rest := c :: r) (by simpa using hc)
      rw [List.replicate_succ, List.cons_append, plainComment_hash, e]
      simp only [hct, List.replicate_succ, List.cons_append]

/-- every text that starts with `#` has parts -/
theorem exists_parts (body : List Char) : ∃ m b w t, CommentParts ('#' :: body) m b w t := by
  obtain ⟨t, ht, hall⟩ := dropWhile_end isAsciiWhitespace body
  generalize hc : (body.reverse.dropWhile isAsciiWhitespace).reverse = core at ht
  have hcl : ∀ x, core.getLast? = some x → isAsciiWhitespace x = false := by
    intro x hx
    rw [← hc, List.getLast?_reverse] at hx
    exact dropWhile_head _ _ x hx
  have htr : AsciiSpaces t := fun x hx => isAsciiWs_iff.mp (hall x hx)
  -- the marker
  have hm : ∃ m rest, core = m ++ rest ∧ CommentMarker m ∧ (rest.head? ≠ some '#' ∨ m = ['!'])
      ∧ (rest.head? ≠ some '!' ∨ m ≠ []) := by
    cases core with
    | nil => exact ⟨[], [], rfl, .none, by simp, by simp⟩
    | cons c cs =>
      by_cases h1 : c = '!'
      · subst h1; exact ⟨['!'], cs, rfl, .bang, .inr rfl, .inr (by simp)⟩
      · by_cases h2 : c = '#'
        · subst h2
          refine ⟨('#' :: cs).takeWhile (· == '#'), ('#' :: cs).dropWhile (· == '#'),
            (List.takeWhile_append_dropWhile).symm, ?_, ?_, ?_⟩
          · have hrep : ∀ l : List Char, l.takeWhile (· == '#')
                = List.replicate (l.takeWhile (· == '#')).length '#' := by
              intro l
              refine List.eq_replicate_iff.mpr ⟨rfl, fun x hx => ?_⟩
              have hall := List.all_takeWhile (l := l) (p := (· == '#'))
              simpa using List.all_eq_true.mp hall x hx
            have := hrep cs
            rw [List.takeWhile_cons_of_pos (by simp)]
            generalize (cs.takeWhile (· == '#')).length = n at this
            rw [this]
            exact .hashes n
          · left
            intro e
            have := dropWhile_head (· == '#') ('#' :: cs) '#' e
            simp at this
          · right; simp
        · exact ⟨[], c :: cs, rfl, .none, .inl (by simpa using h2), .inl (by simpa using h1)⟩
  obtain ⟨m, rest, hcore, hm1, hm2, hm3⟩ := hm
  have hsplit : rest = rest.takeWhile isBlank ++ rest.dropWhile isBlank := List.takeWhile_append_dropWhile.symm
  have hbl : Blanks (rest.takeWhile isBlank) := by
    intro x hx
    have hall := List.all_takeWhile (l := rest) (p := isBlank)
    exact isBlank_iff.mp (List.all_eq_true.mp hall x hx)
  refine ⟨m, rest.takeWhile isBlank, rest.dropWhile isBlank, t, ?_, hm1, ?_, hbl, ?_, ?_, ?_, htr⟩
  · rw [List.append_assoc m, ← hsplit, ← hcore, ← ht]
  · intro hnil
    have e : rest.dropWhile isBlank = rest := by
      have h' := hsplit
      rw [hnil, List.nil_append] at h'
      exact h'.symm
    rw [e]
    exact ⟨hm2, hm3⟩
  · constructor <;> intro e <;> have := dropWhile_head isBlank rest _ e <;> revert this <;> decide
  · intro x hx
    have hx' : core.getLast? = some x := by
      rw [hcore, hsplit, List.getLast?_append, List.getLast?_append, hx]; rfl
    intro has
    have := hcl x hx'
    rw [isAsciiWs_iff.mpr (has x (by simp))] at this
    cases this
  · intro hnil
    cases hb : rest.takeWhile isBlank with
    | nil => rfl
    | cons x xs =>
      exfalso
      have hr : rest = rest.takeWhile isBlank := by
        have h' := hsplit
        rw [hnil, List.append_nil] at h'
        exact h'
      have hne : rest ≠ [] := by rw [hr, hb]; simp
      have hx' : core.getLast? = some (rest.getLast hne) := by
        rw [hcore, List.getLast?_append, List.getLast?_eq_some_getLast hne]; rfl
      have h2 := hcl _ hx'
      have h1 : rest.getLast hne ∈ rest.takeWhile isBlank := by rw [← hr]; exact List.getLast_mem hne
      rcases hbl _ h1 with e | e <;> rw [e] at h2 <;> revert h2 <;> decide

/-- the tidy form has the same marker and words, nothing after them, and is in tidy form -/
theorem tidy_parts {strip : Bool} {text m b w t : List Char} (h : CommentParts text m b w t) :
    CommentParts (tidyComment strip m b w) m (if w = [] then [] else ' ' :: (if strip then [] else b.tail)) w [] := by
  refine ⟨?_, h.marker_ok, ?_, ?_, h.words_start, h.words_end, ?_, by simp [AsciiSpaces]⟩
  · unfold tidyComment
    by_cases hw : w = []
    · simp [hw]
    · simp [hw]
  · intro e
    by_cases hw : w = []
    · subst hw; exact h.marker_max (h.no_words rfl)
    · rw [if_neg hw] at e; cases e
  · intro c hc
    by_cases hw : w = []
    · rw [if_pos hw] at hc; cases hc
    · rw [if_neg hw] at hc
      rcases List.mem_cons.mp hc with rfl | hc
      · exact .inl rfl
      · cases strip with
        | true => simp at hc
        | false => simp only [Bool.false_eq_true, if_false] at hc; exact h.blanks_ok c (List.mem_of_mem_tail hc)
  · intro hw; rw [if_pos hw]

theorem tidy_tidy {strip : Bool} {m b w : List Char} :
    tidyComment strip m (if w = [] then [] else ' ' :: (if strip then [] else b.tail)) w
      = tidyComment strip m b w := by
  unfold tidyComment
  by_cases hw : w = []
  · simp [hw]
  · cases strip <;> simp [hw]

/-! ### directives -/

theorem noDirective_iff {text : List Char} : NoDirective text ↔ ¬ schemaPrefix <+: text
    ∧ ¬ documentPrefix <+: text ∧ ∀ s c, Spaces s → text ≠ '#' :: (s ++ valuePrefix ++ c) :=
  ⟨fun h => ⟨h.schema, h.document, h.value⟩, fun h => ⟨h.1, h.2.1, h.2.2⟩⟩

theorem noDirective_of {text : List Char} (h1 : stripPrefix schemaPrefix text = none)
    (h2 : stripPrefix documentPrefix text = none) (h3 : valueDirective text = some none) :
    NoDirective text := by
  refine noDirective_iff.mpr ⟨?_, ?_, ?_⟩
  · rintro ⟨r, rfl⟩; rw [stripPrefix_append] at h1; cases h1
  · rintro ⟨r, rfl⟩; rw [stripPrefix_append] at h2; cases h2
  · rintro s c hs rfl
    have e : byteDrop 1 ('#' :: (s ++ valuePrefix ++ c)) = some (s ++ valuePrefix ++ c) := by
      have := byteDrop_append ['#'] (s ++ valuePrefix ++ c)
      have hu : utf8Len ['#'] = 1 := by decide
      rw [hu] at this
      exact this
    unfold valueDirective at h3
    rw [e] at h3
    have e2 : trimStart (s ++ valuePrefix ++ c) = valuePrefix ++ c := by
      unfold trimStart
      rw [List.append_assoc, dropWhile_append_all hs]
      refine dropWhile_of_head? fun x hx => ?_
      simp [valuePrefix] at hx; subst hx; decide
    simp only [Option.map_some, e2, stripPrefix_append] at h3
    cases h3

theorem byteDrop_hash (body : List Char) : byteDrop 1 ('#' :: body) = some body := by
  have := byteDrop_append ['#'] body
  have hu : utf8Len ['#'] = 1 := by decide
  rw [hu] at this
  exact this

theorem valueDirective_hash (body : List Char) :
    valueDirective ('#' :: body) = some (stripPrefix valuePrefix (trimStart body)) := by
  unfold valueDirective
  rw [byteDrop_hash]; rfl

theorem valueDirective_none {body : List Char} (h : NoDirective ('#' :: body)) :
    valueDirective ('#' :: body) = some none := by
  rw [valueDirective_hash]
  cases he : stripPrefix valuePrefix (trimStart body) with
  | none => rfl
  | some c =>
    exfalso
    have := stripPrefix_some.mp he
    refine (noDirective_iff.mp h).2.2 (body.takeWhile charIsWhitespace) c ?_ ?_
    · intro x hx
      have hall := List.all_takeWhile (l := body) (p := charIsWhitespace)
      exact List.all_eq_true.mp hall x hx
    · rw [List.append_assoc, ← this]
      unfold trimStart
      rw [List.takeWhile_append_dropWhile]

theorem formatComment_plain {fmt : List Char → Option (List Char)} {strip : Bool} {body : List Char}
    (h : NoDirective ('#' :: body)) : formatComment false fmt strip ('#' :: body) = formatPlain strip ('#' :: body) := by
  unfold formatComment
  rw [if_neg (by simp), stripPrefix_none (noDirective_iff.mp h).1]
  simp only
  rw [stripPrefix_none (noDirective_iff.mp h).2.1]
  simp only
  rw [valueDirective_none h]

/-- tidying does not make a directive of a comment -/
theorem tidy_noDirective {strip : Bool} {text m b w t : List Char} (h : CommentParts text m b w t)
    (hn : NoDirective text) : NoDirective (tidyComment strip m b w) := by
  have hcolon : ∀ p : List Char, ['#', ':'] <+: p → ¬ p <+: tidyComment strip m b w := by
    rintro p ⟨q, rfl⟩ ⟨r, hr⟩
    have hr' : '#' :: ':' :: (q ++ r) = tidyComment strip m b w := by rw [← hr]; rfl
    unfold tidyComment at hr'
    split at hr'
    · injection hr' with _ hr'
      have := h.marker_ok
      rw [← hr'] at this
      generalize he : ':' :: (q ++ r) = x at this
      cases this with
      | none => cases he
      | bang => injection he with e _; exact absurd e (by decide)
      | hashes n => rw [List.replicate_succ] at he; injection he with e _; exact absurd e (by decide)
    · injection hr' with _ hr'
      generalize hm : m = m' at hr'
      have := h.marker_ok
      rw [hm] at this
      cases this with
      | none => injection hr' with e _; exact absurd e (by decide)
      | bang => injection hr' with e _; exact absurd e (by decide)
      | hashes n => rw [List.replicate_succ] at hr'; injection hr' with e _; exact absurd e (by decide)
  refine noDirective_iff.mpr ⟨hcolon _ ⟨_, by rfl⟩, hcolon _ ⟨_, by rfl⟩, ?_⟩
  intro s c hs he
  have hsne : ∀ x ∈ s, x ≠ '#' ∧ x ≠ '!' := by
    intro x hx
    have := hs x hx
    constructor <;> rintro rfl <;> revert this <;> decide
  -- the marker is empty
  have hhead : ∀ x r, s ++ valuePrefix ++ c = x :: r → x ≠ '#' ∧ x ≠ '!' := by
    intro x r hx
    cases s with
    | nil =>
      have : 't' = x := by
        have := congrArg List.head? hx
        simpa [valuePrefix] using this
      subst this; decide
    | cons y ys =>
      rw [List.cons_append, List.cons_append] at hx
      injection hx with e _
      subst e
      exact hsne y (by simp)
  unfold tidyComment at he
  have hm0 : m = [] := by
    have h0 : ∀ r, m ++ r = s ++ valuePrefix ++ c → m = [] := by
      intro r hr
      cases h.marker_ok with
      | none => rfl
      | bang => exact absurd rfl (hhead '!' _ hr.symm).2
      | hashes n =>
        rw [List.replicate_succ] at hr
        exact absurd rfl (hhead '#' _ hr.symm).1
    split at he
    · injection he with _ he
      exact h0 [] (by rw [List.append_nil]; exact he)
    · injection he with _ he
      exact h0 _ he
  subst hm0
  split at he
  · injection he with _ he
    cases s with
    | nil => simp [valuePrefix] at he
    | cons x xs => simp [valuePrefix] at he
  · next hw =>
    injection he with _ he
    rw [List.nil_append] at he
    -- compare with the original text
    have hbws : ∀ x ∈ (if strip then [] else b.tail), charIsWhitespace x = true := by
      intro x hx
      cases strip with
      | true => simp at hx
      | false =>
        simp only [Bool.false_eq_true, if_false] at hx
        rcases h.blanks_ok x (List.mem_of_mem_tail hx) with rfl | rfl <;> decide
    have e1 : trimStart (' ' :: ((if strip then [] else b.tail) ++ w)) = trimStart w := by
      unfold trimStart
      rw [List.dropWhile_cons_of_pos (by decide), dropWhile_append_all hbws]
    have e2 : trimStart (s ++ valuePrefix ++ c) = valuePrefix ++ c := by
      unfold trimStart
      rw [List.append_assoc, dropWhile_append_all hs]
      refine dropWhile_of_head? fun x hx => ?_
      simp [valuePrefix] at hx; subst hx; decide
    rw [he, e2] at e1
    have e3 : w = w.takeWhile charIsWhitespace ++ (valuePrefix ++ c) := by
      rw [e1]; unfold trimStart; rw [List.takeWhile_append_dropWhile]
    refine (noDirective_iff.mp hn).2.2 (b ++ w.takeWhile charIsWhitespace) (c ++ t) ?_ ?_
    · intro x hx
      rcases List.mem_append.mp hx with hx | hx
      · rcases h.blanks_ok x hx with rfl | rfl <;> decide
      · have hall := List.all_takeWhile (l := w) (p := charIsWhitespace)
        exact List.all_eq_true.mp hall x hx
    · have e4 := h.text_eq
      rw [e4]
      congr 1
      calc [] ++ b ++ w ++ t = b ++ (w ++ t) := by simp
        _ = b ++ ((w.takeWhile charIsWhitespace ++ (valuePrefix ++ c)) ++ t) := by rw [← e3]
        _ = _ := by simp only [List.append_assoc]

end Tombi
