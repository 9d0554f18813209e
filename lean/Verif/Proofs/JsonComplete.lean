import Verif.Proofs.JsonSound
/-! Every JSON text is accepted and gives its value. -/
namespace Tombi.Json
open Tombi.Spec Tombi.Spec.Json

theorem isWs_sep {c : Char} (h : isWs c = true) : isSep c = true := by
  unfold isWs at h
  unfold isSep
  simp only [Bool.or_eq_true] at h
  rcases h with h | h <;> simp [h]

theorem sepHead_ws {w s : List Char} (hw : TombiWs w) (hs : SepHead s) : SepHead (w ++ s) := by
  intro c t h
  cases w with
  | nil => exact hs c t h
  | cons x w =>
    simp at h
    rw [← h.1]
    exact isWs_sep (TombiWs.chars hw x (by simp))

theorem sepHead_cons {c : Char} (s : List Char) (h : isSep c = true) : SepHead (c :: s) := by
  intro d t e
  simp at e
  rw [← e.1]
  exact h

theorem notWs_cons {c : Char} (s : List Char) (h : isWs c = false) : NotWsHead (c :: s) := by
  intro d t e
  simp at e
  rw [← e.1]
  exact h

/-- how a value starts -/
theorem value_head {v : Val} {t : List Char} (h : Value tombi v t) :
    ∃ c r, t = c :: r ∧ isWs c = false ∧ c ≠ ']' ∧ c ≠ '}' := by
  cases h with
  | num w h =>
    obtain ⟨x, xs, rfl, -⟩ := number_head h
    have := number_chars h x (by simp)
    refine ⟨x, xs, rfl, ?_, ?_, ?_⟩
    · cases hw : isWs x with
      | false => rfl
      | true => rw [isWs_sep hw] at this; cases this
    · rintro rfl; exact absurd this (by decide)
    · rintro rfl; exact absurd this (by decide)
  | null => exact ⟨_, _, rfl, by decide, by decide, by decide⟩
  | true => exact ⟨_, _, rfl, by decide, by decide, by decide⟩
  | false => exact ⟨_, _, rfl, by decide, by decide, by decide⟩
  | str b s h => exact ⟨_, _, rfl, by decide, by decide, by decide⟩
  | arrEmpty w h => exact ⟨_, _, rfl, by decide, by decide, by decide⟩
  | arr xs t h => exact ⟨_, _, rfl, by decide, by decide, by decide⟩
  | objEmpty w h => exact ⟨_, _, rfl, by decide, by decide, by decide⟩
  | obj xs t h => exact ⟨_, _, rfl, by decide, by decide, by decide⟩

theorem view_head {pre s : List Char} {c : Char} :
    ∃ u us, view pre (piecesOf (c :: s)) = u :: us ∧ (u.kind = .BRACKET_END → c = ']')
      ∧ (u.kind = .BRACE_END → c = '}') := by
  rw [piecesOf_cons, view]
  have hs : ∀ k, (cut c s).1 = .ok k → KShape k (c :: (cut c s).2) := fun k => cut_shape
  refine ⟨_, _, rfl, fun h => ?_, fun h => ?_⟩
  · have := hs _ (Piece.kind_ok (p := ⟨(cut c s).1, c :: (cut c s).2⟩) h (by decide))
    simp [KShape] at this
    exact this.1
  · have := hs _ (Piece.kind_ok (p := ⟨(cut c s).1, c :: (cut c s).2⟩) h (by decide))
    simp [KShape] at this
    exact this.1

theorem len_ws {w s : List Char} (hw : TombiWs w) (hs : NotWsHead s) :
    (piecesOf s).length ≤ (piecesOf (w ++ s)).length := by
  rw [← skipP_ws hs w.length w (Nat.le_refl _) hw]
  obtain ⟨_, _, _, _, _, h⟩ := skip_view [] (piecesOf (w ++ s)) (good_piecesOf _)
  exact h

/-- after leading white space -/
theorem items_split {xs : List Val} {t : List Char} (h : Items tombi xs t) :
    ∃ a c r, t = a ++ c :: r ∧ TombiWs a ∧ isWs c = false ∧ c ≠ ']' := by
  cases h with
  | one a t b x h1 h2 h3 =>
    obtain ⟨c, r, rfl, k1, k2, k3⟩ := value_head h2
    exact ⟨a, c, _, rfl, h1, k1, k2⟩
  | trailing a t b c x h0 h1 h2 h3 h4 =>
    obtain ⟨c, r, rfl, k1, k2, k3⟩ := value_head h2
    exact ⟨a, c, _, rfl, h1, k1, k2⟩
  | cons a t b r x xs h1 h2 h3 h4 =>
    obtain ⟨c, r, rfl, k1, k2, k3⟩ := value_head h2
    exact ⟨a, c, _, rfl, h1, k1, k2⟩

theorem members_split {xs : List (List Char × Val)} {t : List Char} (h : Members tombi xs t) :
    ∃ a r, t = a ++ '"' :: r ∧ TombiWs a := by
  cases h with
  | one a t b k x h1 h2 h3 =>
    cases h2
    exact ⟨a, _, rfl, h1⟩
  | trailing a t b c k x h0 h1 h2 h3 h4 =>
    cases h2
    exact ⟨a, _, rfl, h1⟩
  | cons a t b r k x xs h1 h2 h3 h4 =>
    cases h2
    exact ⟨a, _, rfl, h1⟩

/-- `v` is read from `t` -/
def Reads (v : Val) (t : List Char) : Prop :=
  ∀ src n d pre after, src = pre ++ (t ++ after) → SepHead after → nesting v + d ≤ 128 →
    KeysDistinct v →
    (piecesOf after).length < (piecesOf (t ++ after)).length
    ∧ (2 * (piecesOf (t ++ after)).length + 1 ≤ n →
      ∃ node, parseValue src n d (view pre (piecesOf (t ++ after)))
        = .ok (node, skipTrivia (view (pre ++ t) (piecesOf after))) ∧ node.toVal = v)

/-- `xs` are read from `t` and a bracket -/
def ReadsItems (xs : List Val) (t : List Char) : Prop :=
  ∀ src n d start items pre after, src = pre ++ (t ++ ']' :: after) → nestings xs + (d + 1) ≤ 128 →
    KeysDistinctAll xs →
    (piecesOf after).length < (piecesOf (t ++ ']' :: after)).length
    ∧ (2 * (piecesOf (t ++ ']' :: after)).length + 2 ≤ n →
      ∃ ys r, parseItems src n d start items (skipTrivia (view pre (piecesOf (t ++ ']' :: after))))
        = .ok (.arr (items ++ ys) r, skipTrivia (view (pre ++ t ++ [']']) (piecesOf after)))
        ∧ Node.toVals ys = xs)

/-- `ms` are read from `t` and a brace -/
def ReadsMembers (ms : List (List Char × Val)) (t : List Char) : Prop :=
  ∀ src n d start ms0 pre after, src = pre ++ (t ++ '}' :: after) →
    nestingMembers ms + (d + 1) ≤ 128 → KeysDistinctMembers ms → (ms.map (·.1)).Nodup →
    (∀ k ∈ ms.map (·.1), k ∉ ms0.map (·.1)) →
    (piecesOf after).length < (piecesOf (t ++ '}' :: after)).length
    ∧ (2 * (piecesOf (t ++ '}' :: after)).length + 2 ≤ n →
      ∃ ys r, parseMembers src n d start ms0 (skipTrivia (view pre (piecesOf (t ++ '}' :: after))))
        = .ok (.obj (ms0 ++ ys) r, skipTrivia (view (pre ++ t ++ ['}']) (piecesOf after)))
        ∧ Node.toMembers ys = ms)

theorem parseString_complete {src pre b s rest : List Char}
    (hsrc : src = pre ++ ('"' :: (b ++ '"' :: rest))) (h : Decodes b s) :
    parseString src (Piece.token ⟨.ok .STRING, '"' :: (b ++ ['"'])⟩ (utf8Len pre)
      (advPos Position.zero pre)) = .ok s := by
  have := slice_view (src := src) (pre := pre) (p := ⟨.ok .STRING, '"' :: (b ++ ['"'])⟩)
    (ps := piecesOf rest) (by rw [hsrc, texts_cons, texts_piecesOf]; simp) (utf8Len pre)
    (advPos Position.zero pre) rfl
  unfold parseString
  rw [this]
  simp only []
  rw [decodeToken_eq]
  exact decodeLoop_complete h _ (Nat.le_refl _)

/-- a value of one token -/
theorem reads_scalar {v : Val} {t : List Char} {k : Kind} (mk : Range → Node)
    (hp : ∀ after, SepHead after → piecesOf (t ++ after) = ⟨.ok k, t⟩ :: piecesOf after)
    (hv : ∀ r, (mk r).toVal = v)
    (hr : ∀ src n d pre after, src = pre ++ (t ++ after) → SepHead after →
      ∃ r, parseValue src (n + 1) d (view pre (⟨.ok k, t⟩ :: piecesOf after))
        = .ok (mk r, skipTrivia (view (pre ++ t) (piecesOf after)))) : Reads v t := by
  intro src n d pre after hsrc hs _ _
  rw [hp after hs]
  refine ⟨by simp, fun hn => ?_⟩
  cases n with
  | zero => omega
  | succ n =>
    obtain ⟨r, h⟩ := hr src n d pre after hsrc hs
    exact ⟨_, h, hv r⟩

theorem reads_member {N : Nat} (ihV : ∀ v t, t.length ≤ N → Value tombi v t → Reads v t)
    {k : List Char} {x : Val} {m : List Char} (hm : Member tombi k x m) (hl : m.length ≤ N)
    (src : List Char) (n d : Nat) (start : Range) (ms0 : List (List Char × Node))
    (pre after : List Char)
    (hsrc : src = pre ++ (m ++ after)) (hs : SepHead after) (hnest : nesting x + (d + 1) ≤ 128)
    (hk : KeysDistinct x) (hf : k ∉ ms0.map (·.1)) :
    (piecesOf after).length + 1 < (piecesOf (m ++ after)).length
    ∧ (2 * (piecesOf (m ++ after)).length + 1 ≤ n →
      ∃ node, node.toVal = x ∧ parseMembers src (n + 1) d start ms0 (view pre (piecesOf (m ++ after))) =
        match (Except.ok (node, skipTrivia (view (pre ++ m) (piecesOf after)))
            : Except Err (Node × List Token)) with
            | .error e => .error e
            | .ok (_, []) => .error (.unexpectedToken .BRACE_END .EOF)
            | .ok (v, u :: us) =>
              if u.kind = .COMMA then
                match skipTrivia us with
                | [] => parseMembers src n d start (ms0 ++ [(k, v)]) []
                | w :: ws =>
                  if w.kind = .BRACE_END then
                    .ok (.obj (ms0 ++ [(k, v)]) (Range.new start.start w.range.stop), skipTrivia ws)
                  else parseMembers src n d start (ms0 ++ [(k, v)]) (w :: ws)
              else if u.kind = .BRACE_END then
                .ok (.obj (ms0 ++ [(k, v)]) (Range.new start.start u.range.stop), skipTrivia us)
              else .error (.unexpectedToken .BRACE_END u.kind)) := by
  cases hm with
  | mk _ b w1 w2 t _ hd hw1 hw2 hv =>
    obtain ⟨c, r, rfl, hc1, hc2, hc3⟩ := value_head hv
    have hvl : (c :: r).length ≤ N := by simp at hl ⊢; omega
    have hsrc' : src = (pre ++ '"' :: (b ++ ['"']) ++ w1 ++ [':'] ++ w2) ++ (c :: r ++ after) := by
      rw [hsrc]; simp
    obtain ⟨l1, l2⟩ := ihV x (c :: r) hvl hv src n (d + 1) _ after hsrc' hs hnest hk
    have e1 : ('"' :: (b ++ '"' :: (w1 ++ ':' :: (w2 ++ c :: r)))) ++ after
        = '"' :: (b ++ '"' :: (w1 ++ ':' :: (w2 ++ (c :: r ++ after)))) := by simp
    have hp1 := piecesOf_string (Decodes.body hd) (w1 ++ ':' :: (w2 ++ (c :: r ++ after)))
    have hp2 := (piecesOf_punct (w2 ++ (c :: r ++ after))).2.2.2.2.2
    have hl2 := len_ws hw2 (notWs_cons (r ++ after) hc1)
    have hl1 := len_ws hw1 (notWs_cons (c := ':') (w2 ++ (c :: r ++ after)) (by decide))
    rw [hp2] at hl1
    have hlen : (piecesOf (c :: r ++ after)).length + 2
        ≤ (piecesOf ('"' :: (b ++ '"' :: (w1 ++ ':' :: (w2 ++ (c :: r ++ after)))))).length := by
      rw [hp1]
      simp at hl1 hl2 ⊢
      omega
    rw [e1]
    refine ⟨by omega, fun hn => ?_⟩
    obtain ⟨node, hr, hval⟩ := l2 (by omega)
    refine ⟨node, hval, ?_⟩
    rw [hp1, view, parseMembers]
    have hkind : (Piece.token ⟨.ok .STRING, '"' :: (b ++ ['"'])⟩ (utf8Len pre)
      (advPos Position.zero pre)).kind = .STRING := rfl
    rw [if_pos hkind, parseString_complete (rest := w1 ++ ':' :: (w2 ++ (c :: r ++ after)))
      (by rw [hsrc]; simp) hd]
    simp only []
    rw [if_neg (fun h => hf ((hasKey_iff _ _).mp h)),
      skip_ws _ hw1 (notWs_cons (c := ':') (w2 ++ (c :: r ++ after)) (by decide)), hp2, view, expect,
      if_pos (show (Piece.token ⟨.ok .COLON, [':']⟩ _ _).kind = .COLON from rfl)]
    simp only []
    have e2 : view (pre ++ '"' :: (b ++ ['"']) ++ w1 ++ [':']) (piecesOf (w2 ++ (c :: r ++ after)))
        = view (pre ++ '"' :: (b ++ ['"']) ++ w1 ++ [':']) (piecesOf (w2 ++ (c :: (r ++ after)))) := by
      simp
    rw [List.cons_append] at hr
    rw [e2, skip_ws _ hw2 (notWs_cons (r ++ after) hc1), hr]
    have e3 : pre ++ '"' :: (b ++ ['"']) ++ w1 ++ [':'] ++ w2 ++ c :: r
        = pre ++ '"' :: (b ++ '"' :: (w1 ++ ':' :: (w2 ++ c :: r))) := by simp
    rw [e3]
    generalize skipTrivia (view _ (piecesOf after)) = rest
    cases rest <;> rfl

/-- an element, up to what follows it -/
theorem reads_item {N : Nat} (ihV : ∀ v t, t.length ≤ N → Value tombi v t → Reads v t)
    {x : Val} {t : List Char} (hv : Value tombi x t) (hl : t.length ≤ N) {a b z : List Char} {c : Char}
    (ha : TombiWs a) (hb : TombiWs b) (hc : isSep c = true) (hcw : isWs c = false)
    (src : List Char) (n d : Nat) (start : Range) (items : List Node) (pre : List Char)
    (hsrc : src = pre ++ (a ++ (t ++ (b ++ c :: z)))) (hnest : nesting x + (d + 1) ≤ 128)
    (hk : KeysDistinct x) :
    (piecesOf (c :: z)).length < (piecesOf (a ++ (t ++ (b ++ c :: z)))).length
    ∧ (2 * (piecesOf (a ++ (t ++ (b ++ c :: z)))).length + 1 ≤ n →
      ∃ node, node.toVal = x ∧ parseItems src (n + 1) d start items
          (skipTrivia (view pre (piecesOf (a ++ (t ++ (b ++ c :: z)))))) =
        match view (pre ++ a ++ t ++ b) (piecesOf (c :: z)) with
        | [] => .error (.unexpectedToken .BRACKET_END .EOF)
        | u :: us =>
          if u.kind = .COMMA then
            match skipTrivia us with
            | [] => parseItems src n d start (items ++ [node]) []
            | w :: ws =>
              if w.kind = .BRACKET_END then
                .ok (.arr (items ++ [node]) (Range.new start.start w.range.stop), skipTrivia ws)
              else parseItems src n d start (items ++ [node]) (w :: ws)
          else if u.kind = .BRACKET_END then
            .ok (.arr (items ++ [node]) (Range.new start.start u.range.stop), skipTrivia us)
          else .error (.unexpectedToken .BRACKET_END u.kind)) := by
  have hsep : SepHead (b ++ c :: z) := sepHead_ws hb (sepHead_cons z hc)
  obtain ⟨y, r, hy, hy1, -, -⟩ := value_head hv
  have hnw : NotWsHead (t ++ (b ++ c :: z)) := by rw [hy]; exact notWs_cons _ hy1
  obtain ⟨l1, l2⟩ := ihV x t hl hv src n (d + 1) (pre ++ a) (b ++ c :: z) (by rw [hsrc]; simp) hsep hnest
    hk
  have l3 := len_ws ha hnw
  have l4 := len_ws hb (notWs_cons z hcw)
  refine ⟨by omega, fun hn => ?_⟩
  obtain ⟨node, hr, hval⟩ := l2 (by omega)
  refine ⟨node, hval, ?_⟩
  rw [skip_ws _ ha hnw, parseItems, hr, skip_ws _ hb (notWs_cons z hcw)]
  cases view (pre ++ a ++ t ++ b) (piecesOf (c :: z)) <;> rfl

theorem reads (N : Nat) :
    (∀ v t, t.length ≤ N → Value tombi v t → Reads v t)
    ∧ (∀ xs t, t.length < N → Items tombi xs t → ReadsItems xs t)
    ∧ (∀ ms t, t.length < N → Members tombi ms t → ReadsMembers ms t) := by
  induction N with
  | zero =>
    refine ⟨fun v t hl h => ?_, fun _ _ h => by omega, fun _ _ h => by omega⟩
    obtain ⟨c, r, rfl, -⟩ := value_head h
    simp at hl
  | succ N ih =>
    obtain ⟨ihV, ihI, ihM⟩ := ih
    refine ⟨?_, ?_, ?_⟩
    · intro v t hl h
      cases h with
      | null =>
        refine reads_scalar .null (fun s _ => piecesOf_null s) (fun _ => rfl) ?_
        intro src n d pre after hsrc hs
        exact ⟨_, rfl⟩
      | true =>
        refine reads_scalar (.bool true) (fun s _ => piecesOf_true s) (fun _ => rfl) ?_
        intro src n d pre after hsrc hs
        have := slice_view (src := src) (pre := pre) (p := ⟨.ok .BOOLEAN, ['t', 'r', 'u', 'e']⟩)
          (ps := piecesOf after) (by rw [hsrc, texts_cons, texts_piecesOf]) (utf8Len pre)
          (advPos Position.zero pre) rfl
        refine ⟨(Piece.token ⟨.ok .BOOLEAN, ['t', 'r', 'u', 'e']⟩ (utf8Len pre)
          (advPos Position.zero pre)).range, ?_⟩
        rw [view, parseValue]
        simp only [token_kind, Piece.kind]
        rw [this]
        rfl
      | false =>
        refine reads_scalar (.bool false) (fun s _ => piecesOf_false s) (fun _ => rfl) ?_
        intro src n d pre after hsrc hs
        have := slice_view (src := src) (pre := pre) (p := ⟨.ok .BOOLEAN, ['f', 'a', 'l', 's', 'e']⟩)
          (ps := piecesOf after) (by rw [hsrc, texts_cons, texts_piecesOf]) (utf8Len pre)
          (advPos Position.zero pre) rfl
        refine ⟨(Piece.token ⟨.ok .BOOLEAN, ['f', 'a', 'l', 's', 'e']⟩ (utf8Len pre)
          (advPos Position.zero pre)).range, ?_⟩
        rw [view, parseValue]
        simp only [token_kind, Piece.kind]
        rw [this]
        rfl
      | num w h =>
        refine reads_scalar (.num t) (fun s hs => piecesOf_number h hs) (fun _ => rfl) ?_
        intro src n d pre after hsrc hs
        have := slice_view (src := src) (pre := pre) (p := ⟨.ok .NUMBER, t⟩)
          (ps := piecesOf after) (by rw [hsrc, texts_cons, texts_piecesOf]) (utf8Len pre)
          (advPos Position.zero pre) rfl
        refine ⟨(Piece.token ⟨.ok .NUMBER, t⟩ (utf8Len pre)
          (advPos Position.zero pre)).range, ?_⟩
        rw [view, parseValue]
        simp only [token_kind, Piece.kind]
        rw [this]
      | str b s h =>
        refine reads_scalar (.str s) (k := .STRING) ?_ (fun _ => rfl) ?_
        · intro after _
          have := piecesOf_string (Decodes.body h) after
          simpa using this
        · intro src n d pre after hsrc hs
          have := parseString_complete (src := src) (pre := pre) (rest := after)
            (by rw [hsrc]; simp) h
          refine ⟨(Piece.token ⟨.ok .STRING, '"' :: (b ++ ['"'])⟩ (utf8Len pre)
            (advPos Position.zero pre)).range, ?_⟩
          rw [view, parseValue]
          simp only [token_kind, Piece.kind]
          rw [this]
      | arrEmpty w hw =>
        intro src n d pre after hsrc hs hnest hk
        have e : '[' :: (w ++ [']']) ++ after = '[' :: (w ++ ']' :: after) := by simp
        have hp := (piecesOf_punct (w ++ ']' :: after)).1
        have hq := (piecesOf_punct after).2.1
        have hnw : NotWsHead (']' :: after) := notWs_cons _ (by decide)
        have hlw := len_ws hw hnw
        rw [e, hp]
        rw [hq] at hlw
        simp at hlw
        refine ⟨by simp; omega, fun hn => ?_⟩
        cases n with
        | zero => omega
        | succ n =>
          rw [view, parseValue]
          simp only [token_kind, Piece.kind]
          rw [if_neg (by simp [nesting, nestings] at hnest; unfold maxDepth; omega),
            skip_ws _ hw hnw, hq, view]
          simp only [token_kind, Piece.kind]
          have e2 : pre ++ ['['] ++ w ++ [']'] = pre ++ '[' :: (w ++ [']']) := by simp
          rw [if_pos (by simp), e2]
          exact ⟨_, rfl, rfl⟩
      | objEmpty w hw =>
        intro src n d pre after hsrc hs hnest hk
        have e : '{' :: (w ++ ['}']) ++ after = '{' :: (w ++ '}' :: after) := by simp
        have hp := (piecesOf_punct (w ++ '}' :: after)).2.2.1
        have hq := (piecesOf_punct after).2.2.2.1
        have hnw : NotWsHead ('}' :: after) := notWs_cons _ (by decide)
        have hlw := len_ws hw hnw
        rw [e, hp]
        rw [hq] at hlw
        simp at hlw
        refine ⟨by simp; omega, fun hn => ?_⟩
        cases n with
        | zero => omega
        | succ n =>
          rw [view, parseValue]
          simp only [token_kind, Piece.kind]
          rw [if_neg (by simp [nesting, nestingMembers] at hnest; unfold maxDepth; omega),
            skip_ws _ hw hnw, hq, view]
          simp only [token_kind, Piece.kind]
          have e2 : pre ++ ['{'] ++ w ++ ['}'] = pre ++ '{' :: (w ++ ['}']) := by simp
          rw [if_pos (by simp), e2]
          exact ⟨_, rfl, rfl⟩
      | arr xs t hi =>
        intro src n d pre after hsrc hs hnest hk
        have e : '[' :: (t ++ [']']) ++ after = '[' :: (t ++ ']' :: after) := by simp
        have hp := (piecesOf_punct (t ++ ']' :: after)).1
        rw [e, hp]
        have hsrc' : src = (pre ++ ['[']) ++ (t ++ ']' :: after) := by rw [hsrc]; simp
        have hI := ihI xs t (by simp at hl; omega) hi src (n - 1) d
          ⟨posOf pre, posOf (pre ++ ['['])⟩ [] (pre ++ ['[']) after hsrc'
          (by simp [nesting] at hnest; omega) hk
        refine ⟨by simp; omega, fun hn => ?_⟩
        cases n with
        | zero => omega
        | succ n =>
          obtain ⟨ys, r, hr, hy⟩ := hI.2 (by simp at hn ⊢; omega)
          have htr := token_range ⟨.ok .BRACKET_START, ['[']⟩ pre
          simp only [] at htr
          rw [view, parseValue]
          simp only [token_kind, Piece.kind]
          rw [if_neg (by simp [nesting] at hnest; unfold maxDepth; omega), htr]
          obtain ⟨a, c, r', ht, ha, hc1, hc2⟩ := items_split hi
          have e3 : t ++ ']' :: after = a ++ c :: (r' ++ ']' :: after) := by rw [ht]; simp
          rw [e3, skip_ws _ ha (notWs_cons _ hc1)] at hr ⊢
          obtain ⟨u, us, hu, hu1, -⟩ := view_head (pre := pre ++ ['['] ++ a) (c := c)
            (s := r' ++ ']' :: after)
          rw [hu] at hr ⊢
          simp only [] at hr ⊢
          rw [if_neg (fun h => hc2 (hu1 h))]
          simp only [Nat.add_sub_cancel] at hr
          have e2 : pre ++ ['['] ++ t ++ [']'] = pre ++ '[' :: (t ++ [']']) := by simp
          rw [e2] at hr
          exact ⟨_, hr, by simp [Node.toVal, hy]⟩
      | obj ms t hm =>
        intro src n d pre after hsrc hs hnest hk
        have e : '{' :: (t ++ ['}']) ++ after = '{' :: (t ++ '}' :: after) := by simp
        have hp := (piecesOf_punct (t ++ '}' :: after)).2.2.1
        rw [e, hp]
        have hsrc' : src = (pre ++ ['{']) ++ (t ++ '}' :: after) := by rw [hsrc]; simp
        have hI := ihM ms t (by simp at hl; omega) hm src (n - 1) d
          ⟨posOf pre, posOf (pre ++ ['{'])⟩ [] (pre ++ ['{']) after hsrc'
          (by simp [nesting] at hnest; omega) hk.2 hk.1 (by simp)
        refine ⟨by simp; omega, fun hn => ?_⟩
        cases n with
        | zero => omega
        | succ n =>
          obtain ⟨ys, r, hr, hy⟩ := hI.2 (by simp at hn ⊢; omega)
          have htr := token_range ⟨.ok .BRACE_START, ['{']⟩ pre
          simp only [] at htr
          rw [view, parseValue]
          simp only [token_kind, Piece.kind]
          rw [if_neg (by simp [nesting] at hnest; unfold maxDepth; omega), htr]
          obtain ⟨a, r', ht, ha⟩ := members_split hm
          have e3 : t ++ '}' :: after = a ++ '"' :: (r' ++ '}' :: after) := by rw [ht]; simp
          rw [e3, skip_ws _ ha (notWs_cons _ (by decide))] at hr ⊢
          obtain ⟨u, us, hu, -, hu1⟩ := view_head (pre := pre ++ ['{'] ++ a) (c := '"')
            (s := r' ++ '}' :: after)
          rw [hu] at hr ⊢
          simp only [] at hr ⊢
          rw [if_neg (fun h => absurd (hu1 h) (by decide))]
          simp only [Nat.add_sub_cancel] at hr
          have e2 : pre ++ ['{'] ++ t ++ ['}'] = pre ++ '{' :: (t ++ ['}']) := by simp
          rw [e2] at hr
          exact ⟨_, hr, by simp [Node.toVal, hy]⟩
    · intro xs t hl h
      intro src n d start items pre after hsrc hnest hk
      cases h with
      | one a t b x h1 h2 h3 =>
        have e : a ++ (t ++ b) ++ ']' :: after = a ++ (t ++ (b ++ ']' :: after)) := by simp
        simp only [nestings] at hnest
        rw [e] at hsrc ⊢
        have hi := reads_item ihV h2 (by simp at hl; omega) h1 h3 (c := ']') (z := after) (by decide)
          (by decide) src (n - 1) d start items pre hsrc (by omega) hk.1
        have hq := (piecesOf_punct after).2.1
        refine ⟨by have := hi.1; rw [hq] at this; simp at this; omega, fun hn => ?_⟩
        cases n with
        | zero => omega
        | succ n =>
          obtain ⟨node, hval, hr⟩ := hi.2 (by simp; omega)
          simp only [Nat.add_sub_cancel] at hr
          rw [hq, view] at hr
          simp only [token_kind, Piece.kind] at hr
          rw [if_neg (by decide), if_pos (by simp)] at hr
          have e2 : pre ++ a ++ t ++ b ++ [']'] = pre ++ (a ++ (t ++ b)) ++ [']'] := by simp
          rw [e2] at hr
          exact ⟨[node], _, hr, by simp [Node.toVals, hval]⟩
      | trailing a t b c x h0 h1 h2 h3 h4 =>
        have e : a ++ (t ++ (b ++ ',' :: c)) ++ ']' :: after
            = a ++ (t ++ (b ++ ',' :: (c ++ ']' :: after))) := by simp
        simp only [nestings] at hnest
        rw [e] at hsrc ⊢
        have hi := reads_item ihV h2 (by simp at hl; omega) h1 h3 (c := ',') (z := c ++ ']' :: after)
          (by decide) (by decide) src (n - 1) d start items pre hsrc (by omega) hk.1
        have hq := (piecesOf_punct (c ++ ']' :: after)).2.2.2.2.1
        have hq2 := (piecesOf_punct after).2.1
        have hnw : NotWsHead (']' :: after) := notWs_cons _ (by decide)
        have hlw := len_ws h4 hnw
        rw [hq2] at hlw
        simp at hlw
        refine ⟨by have := hi.1; rw [hq] at this; simp at this; omega, fun hn => ?_⟩
        cases n with
        | zero => omega
        | succ n =>
          obtain ⟨node, hval, hr⟩ := hi.2 (by simp; omega)
          simp only [Nat.add_sub_cancel] at hr
          rw [hq, view] at hr
          simp only [token_kind, Piece.kind] at hr
          rw [if_pos (by simp), skip_ws _ h4 hnw, hq2, view] at hr
          simp only [token_kind, Piece.kind] at hr
          rw [if_pos (by simp)] at hr
          have e2 : pre ++ a ++ t ++ b ++ [','] ++ c ++ [']']
                = pre ++ (a ++ (t ++ (b ++ ',' :: c))) ++ [']'] := by simp
          rw [e2] at hr
          exact ⟨[node], _, hr, by simp [Node.toVals, hval]⟩
      | cons a t b r x xs h1 h2 h3 h4 =>
        have e : a ++ (t ++ (b ++ ',' :: r)) ++ ']' :: after
            = a ++ (t ++ (b ++ ',' :: (r ++ ']' :: after))) := by simp
        simp only [nestings] at hnest
        rw [e] at hsrc ⊢
        have hi := reads_item ihV h2 (by simp at hl; omega) h1 h3 (c := ',') (z := r ++ ']' :: after)
          (by decide) (by decide) src (n - 1) d start items pre hsrc (by omega) hk.1
        have hq := (piecesOf_punct (r ++ ']' :: after)).2.2.2.2.1
        have hlr := hi.1
        rw [hq] at hlr
        simp at hlr
        have hrest := fun its : List Node => ihI xs r (by simp at hl; omega) h4 src (n - 1) d start its
          (pre ++ a ++ t ++ b ++ [',']) after (by rw [hsrc]; simp) (by omega) hk.2
        refine ⟨by have := (hrest []).1; omega, fun hn => ?_⟩
        cases n with
        | zero => omega
        | succ n =>
          obtain ⟨node, hval, hr⟩ := hi.2 (by simp; omega)
          simp only [Nat.add_sub_cancel] at hr
          rw [hq, view] at hr
          simp only [token_kind, Piece.kind] at hr
          rw [if_pos (by simp)] at hr
          obtain ⟨ys, rg, hs, hys⟩ := (hrest (items ++ [node])).2 (by simp; omega)
          simp only [Nat.add_sub_cancel] at hs
          obtain ⟨a', c', r', ht', ha', hc1, hc2⟩ := items_split h4
          have e3 : r ++ ']' :: after = a' ++ c' :: (r' ++ ']' :: after) := by rw [ht']; simp
          have hsk : skipTrivia (view (pre ++ a ++ t ++ b ++ [',']) (piecesOf (r ++ ']' :: after)))
              = view (pre ++ a ++ t ++ b ++ [','] ++ a') (piecesOf (c' :: (r' ++ ']' :: after))) := by
            rw [e3, skip_ws _ ha' (notWs_cons _ hc1)]
          obtain ⟨u, us, hu, hu1, -⟩ := view_head (pre := pre ++ a ++ t ++ b ++ [','] ++ a') (c := c')
            (s := r' ++ ']' :: after)
          rw [hsk, hu] at hr hs
          simp only [] at hr
          rw [if_neg (fun h => hc2 (hu1 h)), hs] at hr
          refine ⟨node :: ys, rg, ?_, by simp [Node.toVals, hval, hys]⟩
          rw [hr]
          simp
    · intro ms t hl h
      intro src n d start ms0 pre after hsrc hnest hk hnd hfr
      cases h with
      | one a t b k x h1 h2 h3 =>
        have e : a ++ (t ++ b) ++ '}' :: after = a ++ (t ++ (b ++ '}' :: after)) := by simp
        simp only [nestingMembers] at hnest
        rw [e] at hsrc ⊢
        have hq := (piecesOf_punct after).2.2.2.1
        have hnw : NotWsHead ('}' :: after) := notWs_cons _ (by decide)
        have hm := reads_member ihV h2 (by simp at hl; omega) src (n - 1) d start ms0 (pre ++ a)
          (b ++ '}' :: after) (by rw [hsrc]; simp) (sepHead_ws h3 (sepHead_cons _ (by decide)))
          (by omega) hk.1 (hfr k (by simp))
        have hnwt : NotWsHead (t ++ (b ++ '}' :: after)) := by
          cases h2; exact notWs_cons _ (by decide)
        have l1 := len_ws h1 hnwt
        have l2 := len_ws h3 hnw
        rw [hq] at l2
        simp at l2
        refine ⟨by omega, fun hn => ?_⟩
        cases n with
        | zero => omega
        | succ n =>
          obtain ⟨node, hval, hr⟩ := hm.2 (by simp; omega)
          simp only [Nat.add_sub_cancel] at hr
          rw [← skip_ws _ h1 hnwt, skip_ws _ h3 hnw, hq, view] at hr
          simp only [token_kind, Piece.kind] at hr
          rw [if_neg (by decide), if_pos (by simp)] at hr
          have e2 : pre ++ a ++ t ++ b ++ ['}'] = pre ++ (a ++ (t ++ b)) ++ ['}'] := by simp
          rw [e2] at hr
          exact ⟨[(k, node)], _, hr, by simp [Node.toMembers, hval]⟩
      | trailing a t b c k x h0 h1 h2 h3 h4 =>
        have e : a ++ (t ++ (b ++ ',' :: c)) ++ '}' :: after
            = a ++ (t ++ (b ++ ',' :: (c ++ '}' :: after))) := by simp
        simp only [nestingMembers] at hnest
        rw [e] at hsrc ⊢
        have hq := (piecesOf_punct (c ++ '}' :: after)).2.2.2.2.1
        have hq2 := (piecesOf_punct after).2.2.2.1
        have hnw : NotWsHead (',' :: (c ++ '}' :: after)) := notWs_cons _ (by decide)
        have hnw2 : NotWsHead ('}' :: after) := notWs_cons _ (by decide)
        have hm := reads_member ihV h2 (by simp at hl; omega) src (n - 1) d start ms0 (pre ++ a)
          (b ++ ',' :: (c ++ '}' :: after)) (by rw [hsrc]; simp)
          (sepHead_ws h3 (sepHead_cons _ (by decide))) (by omega) hk.1 (hfr k (by simp))
        have hnwt : NotWsHead (t ++ (b ++ ',' :: (c ++ '}' :: after))) := by
          cases h2; exact notWs_cons _ (by decide)
        have l1 := len_ws h1 hnwt
        have l2 := len_ws h3 hnw
        have l3 := len_ws h4 hnw2
        rw [hq] at l2
        rw [hq2] at l3
        simp at l2 l3
        refine ⟨by omega, fun hn => ?_⟩
        cases n with
        | zero => omega
        | succ n =>
          obtain ⟨node, hval, hr⟩ := hm.2 (by simp; omega)
          simp only [Nat.add_sub_cancel] at hr
          rw [← skip_ws _ h1 hnwt, skip_ws _ h3 hnw, hq, view] at hr
          simp only [token_kind, Piece.kind] at hr
          rw [if_pos (by simp), skip_ws _ h4 hnw2, hq2, view] at hr
          simp only [token_kind, Piece.kind] at hr
          rw [if_pos (by simp)] at hr
          have e2 : pre ++ a ++ t ++ b ++ [','] ++ c ++ ['}']
                = pre ++ (a ++ (t ++ (b ++ ',' :: c))) ++ ['}'] := by simp
          rw [e2] at hr
          exact ⟨[(k, node)], _, hr, by simp [Node.toMembers, hval]⟩
      | cons a t b r k x xs h1 h2 h3 h4 =>
        have e : a ++ (t ++ (b ++ ',' :: r)) ++ '}' :: after
            = a ++ (t ++ (b ++ ',' :: (r ++ '}' :: after))) := by simp
        simp only [nestingMembers] at hnest
        rw [e] at hsrc ⊢
        have hq := (piecesOf_punct (r ++ '}' :: after)).2.2.2.2.1
        have hnw : NotWsHead (',' :: (r ++ '}' :: after)) := notWs_cons _ (by decide)
        have hm := reads_member ihV h2 (by simp at hl; omega) src (n - 1) d start ms0 (pre ++ a)
          (b ++ ',' :: (r ++ '}' :: after)) (by rw [hsrc]; simp)
          (sepHead_ws h3 (sepHead_cons _ (by decide))) (by omega) hk.1 (hfr k (by simp))
        have hnwt : NotWsHead (t ++ (b ++ ',' :: (r ++ '}' :: after))) := by
          cases h2; exact notWs_cons _ (by decide)
        have l1 := len_ws h1 hnwt
        have l2 := len_ws h3 hnw
        rw [hq] at l2
        simp at l2
        rw [List.map_cons, List.nodup_cons] at hnd
        have hrest := fun (v : Node) => ihM xs r (by simp at hl; omega) h4 src (n - 1) d start
          (ms0 ++ [(k, v)]) (pre ++ a ++ t ++ b ++ [',']) after (by rw [hsrc]; simp) (by omega) hk.2
          hnd.2 (by
            intro k' hk' hin
            rw [List.map_append] at hin
            simp only [List.mem_append, List.map_cons, List.map_nil, List.mem_singleton] at hin
            rcases hin with hin | rfl
            · exact hfr k' (by simp only [List.map_cons, List.mem_cons]; exact .inr hk') hin
            · exact hnd.1 hk')
        refine ⟨by have := (hrest (.null ⟨Position.zero, Position.zero⟩)).1; omega, fun hn => ?_⟩
        cases n with
        | zero => omega
        | succ n =>
          obtain ⟨node, hval, hr⟩ := hm.2 (by simp; omega)
          simp only [Nat.add_sub_cancel] at hr
          rw [← skip_ws _ h1 hnwt, skip_ws _ h3 hnw, hq, view] at hr
          simp only [token_kind, Piece.kind] at hr
          rw [if_pos (by simp)] at hr
          obtain ⟨ys, rg, hs, hys⟩ := (hrest node).2 (by simp; omega)
          simp only [Nat.add_sub_cancel] at hs
          obtain ⟨a', r', ht', ha'⟩ := members_split h4
          have e3 : r ++ '}' :: after = a' ++ '"' :: (r' ++ '}' :: after) := by rw [ht']; simp
          have hsk : skipTrivia (view (pre ++ a ++ t ++ b ++ [',']) (piecesOf (r ++ '}' :: after)))
              = view (pre ++ a ++ t ++ b ++ [','] ++ a') (piecesOf ('"' :: (r' ++ '}' :: after))) := by
            rw [e3, skip_ws _ ha' (notWs_cons _ (by decide))]
          obtain ⟨u, us, hu, -, hu1⟩ := view_head (pre := pre ++ a ++ t ++ b ++ [','] ++ a') (c := '"')
            (s := r' ++ '}' :: after)
          rw [hsk, hu] at hr hs
          simp only [] at hr
          rw [if_neg (fun h => absurd (hu1 h) (by decide)), hs] at hr
          refine ⟨(k, node) :: ys, rg, ?_, by simp [Node.toMembers, hval, hys]⟩
          rw [hr]
          simp

end Tombi.Json
