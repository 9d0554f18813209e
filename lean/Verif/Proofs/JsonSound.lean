import Verif.Proofs.JsonScan
import Verif.Props.Lexer
/-! What the parser accepts is a JSON text of what it returns. -/
namespace Tombi.Json
open Tombi.Spec Tombi.Spec.Json

def errOk (e : Err) : Prop := e ≠ .panic ∧ e ≠ .outOfFuel

/-- A value read from the pieces `ps` after the text `pre`. -/
structure Parsed (src : List Char) (d : Nat) (pre : List Char) (ps : List Piece) (node : Node)
    (rest : List Token) (t w : List Char) (ps' : List Piece) : Prop where
  texts : texts ps = t ++ (w ++ texts ps')
  rest : rest = view (pre ++ t ++ w) ps'
  ws : TombiWs w
  good : Good ps'
  len : ps'.length < ps.length
  value : Value tombi node.toVal t
  nest : nesting node.toVal + d ≤ 128
  keys : KeysDistinct node.toVal
  range : node.range = ⟨posOf pre, posOf (pre ++ t)⟩
  inside : Everywhere (InPlace src) node

def Sound (src : List Char) (d : Nat) (pre : List Char) (ps : List Piece) :
    Except Err (Node × List Token) → Prop
  | .error e => errOk e
  | .ok (node, rest) => ∃ t w ps', Parsed src d pre ps node rest t w ps'

theorem toVals_append (xs ys : List Node) :
    Node.toVals (xs ++ ys) = Node.toVals xs ++ Node.toVals ys := by
  induction xs with
  | nil => rfl
  | cons x xs ih => simp [Node.toVals, ih]

theorem toMembers_append (xs ys : List (List Char × Node)) :
    Node.toMembers (xs ++ ys) = Node.toMembers xs ++ Node.toMembers ys := by
  induction xs with
  | nil => rfl
  | cons x xs ih => cases x; simp [Node.toMembers, ih]

theorem toMembers_keys (xs : List (List Char × Node)) :
    (Node.toMembers xs).map (·.1) = xs.map (·.1) := by
  induction xs with
  | nil => rfl
  | cons x xs ih => cases x; simp [Node.toMembers, ih]

theorem hasKey_iff (k : List Char) (ms : List (List Char × Node)) :
    hasKey k ms = true ↔ k ∈ ms.map (·.1) := by
  unfold hasKey
  simp only [List.any_eq_true, beq_iff_eq, List.mem_map]

/-- The elements read by the loop over an array. -/
structure ParsedItems (src : List Char) (d : Nat) (start : Range) (items : List Node)
    (pre : List Char) (ps : List Piece) (node : Node) (rest : List Token) (xs : List Node)
    (t w : List Char) (ps' : List Piece) : Prop where
  node : node = .arr (items ++ xs) (Range.new start.start (posOf (pre ++ t ++ [']'])))
  texts : texts ps = t ++ ']' :: (w ++ texts ps')
  rest : rest = view (pre ++ t ++ [']'] ++ w) ps'
  ws : TombiWs w
  good : Good ps'
  len : ps'.length < ps.length
  value : Items tombi (Node.toVals xs) t
  nest : nestings (Node.toVals xs) + (d + 1) ≤ 128
  keys : KeysDistinctAll (Node.toVals xs)
  inside : EverywhereItems (InPlace src) xs

def SoundItems (src : List Char) (d : Nat) (start : Range) (items : List Node) (pre : List Char)
    (ps : List Piece) : Except Err (Node × List Token) → Prop
  | .error e => errOk e
  | .ok (node, rest) => ∃ xs t w ps', ParsedItems src d start items pre ps node rest xs t w ps'

/-- The members read by the loop over an object. -/
structure ParsedMembers (src : List Char) (d : Nat) (start : Range) (ms0 : List (List Char × Node))
    (pre : List Char) (ps : List Piece) (node : Node) (rest : List Token)
    (ms : List (List Char × Node)) (t w : List Char) (ps' : List Piece) : Prop where
  node : node = .obj (ms0 ++ ms) (Range.new start.start (posOf (pre ++ t ++ ['}'])))
  texts : texts ps = t ++ '}' :: (w ++ texts ps')
  rest : rest = view (pre ++ t ++ ['}'] ++ w) ps'
  ws : TombiWs w
  good : Good ps'
  len : ps'.length < ps.length
  value : Members tombi (Node.toMembers ms) t
  nest : nestingMembers (Node.toMembers ms) + (d + 1) ≤ 128
  distinct : (ms.map (·.1)).Nodup
  fresh : ∀ k ∈ ms.map (·.1), k ∉ ms0.map (·.1)
  keys : KeysDistinctMembers (Node.toMembers ms)
  inside : EverywhereMembers (InPlace src) ms

def SoundMembers (src : List Char) (d : Nat) (start : Range) (ms0 : List (List Char × Node))
    (pre : List Char) (ps : List Piece) : Except Err (Node × List Token) → Prop
  | .error e => errOk e
  | .ok (node, rest) => ∃ ms t w ps', ParsedMembers src d start ms0 pre ps node rest ms t w ps'

/-- a range from one place to a later one -/
theorem Range.new_posOf (pre t : List Char) :
    Range.new (posOf pre) (posOf (pre ++ t)) = ⟨posOf pre, posOf (pre ++ t)⟩ := by
  rw [← advPos_zero, ← advPos_zero, advPos_append]
  exact Range.new_adv _ _

theorem token_kind (p : Piece) (off : Nat) (pos : Position) : (p.token off pos).kind = p.kind := rfl

theorem token_range (p : Piece) (pre : List Char) :
    (p.token (utf8Len pre) (advPos Position.zero pre)).range = ⟨posOf pre, posOf (pre ++ p.text)⟩ := by
  unfold Piece.token
  simp only []
  rw [← advPos_append, advPos_zero, advPos_zero]

/-- leading white space of the elements -/
theorem items_ws {w : List Char} (hw : TombiWs w) {xs : List Val} {t : List Char}
    (h : Items tombi xs t) : Items tombi xs (w ++ t) := by
  cases h with
  | one a t b x h1 h2 h3 =>
    rw [← List.append_assoc w]
    exact .one _ t b x (TombiWs.append hw h1) h2 h3
  | trailing a t b c x h0 h1 h2 h3 h4 =>
    rw [← List.append_assoc w]
    exact .trailing _ t b c x h0 (TombiWs.append hw h1) h2 h3 h4
  | cons a t b r x xs h1 h2 h3 h4 =>
    rw [← List.append_assoc w]
    exact .cons _ t b r x xs (TombiWs.append hw h1) h2 h3 h4

theorem members_ws {w : List Char} (hw : TombiWs w) {xs : List (List Char × Val)} {t : List Char}
    (h : Members tombi xs t) : Members tombi xs (w ++ t) := by
  cases h with
  | one a t b k x h1 h2 h3 =>
    rw [← List.append_assoc w]
    exact .one _ t b k x (TombiWs.append hw h1) h2 h3
  | trailing a t b c k x h0 h1 h2 h3 h4 =>
    rw [← List.append_assoc w]
    exact .trailing _ t b c k x h0 (TombiWs.append hw h1) h2 h3 h4
  | cons a t b r k x xs h1 h2 h3 h4 =>
    rw [← List.append_assoc w]
    exact .cons _ t b r k x xs (TombiWs.append hw h1) h2 h3 h4

/-- a value of one token -/
theorem sound_scalar {src : List Char} {d : Nat} {pre : List Char} {p : Piece} {ps : List Piece}
    {node : Node} (hd : d ≤ 128) (hsrc : src = pre ++ texts (p :: ps)) (hg : Good (p :: ps))
    (hv : Value tombi node.toVal p.text) (hn : nesting node.toVal = 0)
    (hk : KeysDistinct node.toVal)
    (hr : node.range = (p.token (utf8Len pre) (advPos Position.zero pre)).range)
    (he : Everywhere (InPlace src) node ↔ InPlace src node) :
    Sound src d pre (p :: ps) (.ok (node, skipTrivia (view (pre ++ p.text) ps))) := by
  obtain ⟨w, h1, h2, h3, h4, h5⟩ := skip_view (pre ++ p.text) ps hg.tail
  rw [token_range] at hr
  refine ⟨p.text, w, skipP ps, ?_, h3, h1, h4, ?_, hv, by omega, hk, hr, ?_⟩
  · rw [texts_cons, h2]
  · simp; omega
  · exact he.mpr ⟨pre, p.text, texts ps, by rw [hsrc, texts_cons], hv, hr⟩

theorem parseString_sound {src pre : List Char} {p : Piece} {ps : List Piece}
    (hsrc : src = pre ++ texts (p :: ps)) (hg : Good (p :: ps)) (hk : p.kind = .STRING) :
    match parseString src (p.token (utf8Len pre) (advPos Position.zero pre)) with
    | .ok s => ∃ b, p.text = '"' :: (b ++ ['"']) ∧ Decodes b s
    | .error e => errOk e := by
  obtain ⟨b, hb, hsb⟩ := hg p (by simp) _ (Piece.kind_ok hk (by decide))
  unfold parseString
  rw [slice_view hsrc _ _ rfl]
  simp only []
  rw [hb, decodeToken_eq]
  have := decodeLoop_sound b.length b (Nat.le_refl _) hsb
  split
  · next s hs => rw [hs] at this; exact ⟨b, rfl, this⟩
  · next e he => rw [he] at this; exact this

theorem parse_sound (src : List Char) (n : Nat) :
    (∀ d pre ps, d ≤ 128 → src = pre ++ texts ps → Good ps → 2 * ps.length + 1 ≤ n →
      Sound src d pre ps (parseValue src n d (view pre ps)))
    ∧ (∀ d start items pre ps, d + 1 ≤ 128 → src = pre ++ texts ps → Good ps →
      2 * ps.length + 2 ≤ n →
      SoundItems src d start items pre ps (parseItems src n d start items (view pre ps)))
    ∧ (∀ d start ms pre ps, d + 1 ≤ 128 → src = pre ++ texts ps → Good ps →
      2 * ps.length + 2 ≤ n →
      SoundMembers src d start ms pre ps (parseMembers src n d start ms (view pre ps))) := by
  induction n with
  | zero => exact ⟨fun _ _ _ _ _ _ h => by omega, fun _ _ _ _ _ _ _ _ h => by omega,
      fun _ _ _ _ _ _ _ _ h => by omega⟩
  | succ n ih =>
    obtain ⟨ihV, ihI, ihM⟩ := ih
    refine ⟨?_, ?_, ?_⟩
    · intro d pre ps hd hsrc hg hn
      cases ps with
      | nil => simp [view, parseValue, Sound, errOk]
      | cons p ps =>
        have hsl := slice_view hsrc (utf8Len pre) (advPos Position.zero pre) rfl
        have hshape := hg p (by simp)
        have hsrc' : src = (pre ++ p.text) ++ texts ps := by rw [hsrc, texts_cons]; simp
        rw [view, parseValue]
        cases hk : p.kind <;>
          (have hk' : (p.token (utf8Len pre) (advPos Position.zero pre)).kind = _ := hk
           rw [hk']
           simp only [])
        case STRING =>
          have := parseString_sound hsrc hg hk
          split
          · next s hs =>
            rw [hs] at this
            obtain ⟨b, hb, hd'⟩ := this
            refine sound_scalar hd hsrc hg ?_ rfl trivial rfl Iff.rfl
            rw [hb]
            exact .str b s hd'
          · next e he => rw [he] at this; exact this
        case NUMBER =>
          rw [hsl]
          exact sound_scalar hd hsrc hg (.num _ (hshape _ (Piece.kind_ok hk (by decide)))) rfl trivial
            rfl Iff.rfl
        case NULL =>
          refine sound_scalar hd hsrc hg ?_ rfl trivial rfl Iff.rfl
          have := hshape _ (Piece.kind_ok hk (by decide))
          simp only [KShape] at this
          rw [this]
          exact .null
        case BOOLEAN =>
          rw [hsl]
          refine sound_scalar hd hsrc hg ?_ rfl trivial rfl Iff.rfl
          rcases hshape _ (Piece.kind_ok hk (by decide)) with h | h
          · rw [h]; exact .true
          · rw [h]; exact .false
        case BRACKET_START =>
          have htx : p.text = ['['] := hshape _ (Piece.kind_ok hk (by decide))
          by_cases hm : maxDepth ≤ d
          · rw [if_pos hm]; simp [Sound, errOk]
          rw [if_neg hm]
          have hm' : d + 1 ≤ 128 := by unfold maxDepth at hm; omega
          obtain ⟨w, h1, h2, h3, h4, h5⟩ := skip_view (pre ++ p.text) ps hg.tail
          rw [h3]
          have hsrc2 : src = (pre ++ p.text ++ w) ++ texts (skipP ps) := by
            rw [hsrc', h2]; simp
          have hitems := ihI d (p.token (utf8Len pre) (advPos Position.zero pre)).range []
            (pre ++ p.text ++ w) (skipP ps) hm' hsrc2 h4 (by simp at hn; omega)
          have hfin : SoundItems src d (p.token (utf8Len pre) (advPos Position.zero pre)).range []
              (pre ++ p.text ++ w) (skipP ps)
              (parseItems src n d (p.token (utf8Len pre) (advPos Position.zero pre)).range []
                (view (pre ++ p.text ++ w) (skipP ps))) →
              Sound src d pre (p :: ps)
              (parseItems src n d (p.token (utf8Len pre) (advPos Position.zero pre)).range []
                (view (pre ++ p.text ++ w) (skipP ps))) := by
            generalize parseItems src n d (p.token (utf8Len pre) (advPos Position.zero pre)).range []
                (view (pre ++ p.text ++ w) (skipP ps)) = res
            intro hres
            cases res with
            | error e => exact hres
            | ok r =>
              obtain ⟨node, rest⟩ := r
              obtain ⟨xs, t, w2, ps', hP⟩ := hres
              have hval : Value tombi node.toVal ('[' :: (w ++ t ++ [']'])) := by
                rw [hP.node]
                exact .arr _ _ (items_ws h1 hP.value)
              have hrange : node.range = ⟨posOf pre, posOf (pre ++ '[' :: (w ++ t ++ [']']))⟩ := by
                rw [hP.node, token_range]
                have e : pre ++ p.text ++ w ++ t ++ [']'] = pre ++ '[' :: (w ++ t ++ [']']) := by
                  simp [htx]
                rw [e]
                exact Range.new_posOf _ _
              refine ⟨'[' :: (w ++ t ++ [']']), w2, ps', ?_, ?_, hP.ws, hP.good, ?_, hval, ?_, ?_,
                hrange, ?_⟩
              · rw [texts_cons, h2, hP.texts, htx]; simp
              · rw [hP.rest, htx]; simp
              · have := hP.len; simp; omega
              · rw [hP.node]
                have := hP.nest
                simp only [Node.toVal, nesting, List.nil_append]
                omega
              · rw [hP.node]
                exact hP.keys
              · have hin : InPlace src node :=
                  ⟨pre, _, w2 ++ texts ps', by
                    rw [hsrc, texts_cons, h2, hP.texts, htx]; simp, hval, hrange⟩
                rw [hP.node] at hin ⊢
                exact ⟨hin, hP.inside⟩
          split
          · next hv => rw [← hv]; exact hfin hitems
          · next u us hv =>
            by_cases hu : u.kind = .BRACKET_END
            · rw [if_pos hu]
              cases hps : skipP ps with
              | nil =>
                rw [hps, view] at hv
                simp at hv
                rw [← hv.1] at hu
                cases hu
              | cons q qs =>
                rw [hps, view] at hv
                simp only [List.cons.injEq] at hv
                obtain ⟨rfl, rfl⟩ := hv
                have hqt : q.text = [']'] := by
                  rw [hps] at h4
                  exact h4 q (by simp) _ (Piece.kind_ok hu (by decide))
                rw [hps] at h4 h2
                obtain ⟨w2, k1, k2, k3, k4, k5⟩ := skip_view (pre ++ p.text ++ w ++ q.text) qs h4.tail
                rw [k3]
                have hval : ∀ r, Value tombi (Node.arr [] r).toVal ('[' :: (w ++ [']'])) :=
                  fun r => .arrEmpty w h1
                have hrange : (Range.new (p.token (utf8Len pre) (advPos Position.zero pre)).range.start
                    (q.token (utf8Len (pre ++ p.text ++ w))
                      (advPos Position.zero (pre ++ p.text ++ w))).range.stop)
                    = ⟨posOf pre, posOf (pre ++ '[' :: (w ++ [']']))⟩ := by
                  rw [token_range, token_range]
                  have e : pre ++ p.text ++ w ++ q.text = pre ++ '[' :: (w ++ [']']) := by
                    simp [htx, hqt]
                  rw [e]
                  exact Range.new_posOf _ _
                refine ⟨'[' :: (w ++ [']']), w2, skipP qs, ?_, ?_, k1, k4, ?_, hval _, ?_, trivial,
                  hrange, ?_⟩
                · rw [texts_cons, h2, texts_cons, k2, htx, hqt]; simp
                · rw [htx, hqt]; simp
                · rw [hps] at h5; simp at h5 ⊢; omega
                · simp only [Node.toVal, Node.toVals, nesting, nestings]; omega
                · refine ⟨⟨pre, _, w2 ++ texts (skipP qs), ?_, hval _, hrange⟩, trivial⟩
                  rw [hsrc, texts_cons, h2, texts_cons, k2, htx, hqt]; simp
            · rw [if_neg hu, ← hv]
              exact hfin hitems
        case BRACE_START =>
          have htx : p.text = ['{'] := hshape _ (Piece.kind_ok hk (by decide))
          by_cases hm : maxDepth ≤ d
          · rw [if_pos hm]; simp [Sound, errOk]
          rw [if_neg hm]
          have hm' : d + 1 ≤ 128 := by unfold maxDepth at hm; omega
          obtain ⟨w, h1, h2, h3, h4, h5⟩ := skip_view (pre ++ p.text) ps hg.tail
          rw [h3]
          have hsrc2 : src = (pre ++ p.text ++ w) ++ texts (skipP ps) := by
            rw [hsrc', h2]; simp
          have hitems := ihM d (p.token (utf8Len pre) (advPos Position.zero pre)).range []
            (pre ++ p.text ++ w) (skipP ps) hm' hsrc2 h4 (by simp at hn; omega)
          have hfin : SoundMembers src d (p.token (utf8Len pre) (advPos Position.zero pre)).range []
              (pre ++ p.text ++ w) (skipP ps)
              (parseMembers src n d (p.token (utf8Len pre) (advPos Position.zero pre)).range []
                (view (pre ++ p.text ++ w) (skipP ps))) →
              Sound src d pre (p :: ps)
              (parseMembers src n d (p.token (utf8Len pre) (advPos Position.zero pre)).range []
                (view (pre ++ p.text ++ w) (skipP ps))) := by
            generalize parseMembers src n d (p.token (utf8Len pre) (advPos Position.zero pre)).range []
                (view (pre ++ p.text ++ w) (skipP ps)) = res
            intro hres
            cases res with
            | error e => exact hres
            | ok r =>
              obtain ⟨node, rest⟩ := r
              obtain ⟨ms, t, w2, ps', hP⟩ := hres
              have hval : Value tombi node.toVal ('{' :: (w ++ t ++ ['}'])) := by
                rw [hP.node]
                exact .obj _ _ (members_ws h1 hP.value)
              have hrange : node.range = ⟨posOf pre, posOf (pre ++ '{' :: (w ++ t ++ ['}']))⟩ := by
                rw [hP.node, token_range]
                have e : pre ++ p.text ++ w ++ t ++ ['}'] = pre ++ '{' :: (w ++ t ++ ['}']) := by
                  simp [htx]
                rw [e]
                exact Range.new_posOf _ _
              refine ⟨'{' :: (w ++ t ++ ['}']), w2, ps', ?_, ?_, hP.ws, hP.good, ?_, hval, ?_, ?_,
                hrange, ?_⟩
              · rw [texts_cons, h2, hP.texts, htx]; simp
              · rw [hP.rest, htx]; simp
              · have := hP.len; simp; omega
              · rw [hP.node]
                have := hP.nest
                simp only [Node.toVal, nesting, List.nil_append]
                omega
              · rw [hP.node]
                refine ⟨?_, hP.keys⟩
                rw [toMembers_keys]
                exact hP.distinct
              · have hin : InPlace src node :=
                  ⟨pre, _, w2 ++ texts ps', by
                    rw [hsrc, texts_cons, h2, hP.texts, htx]; simp, hval, hrange⟩
                rw [hP.node] at hin ⊢
                exact ⟨hin, hP.inside⟩
          split
          · next hv => rw [← hv]; exact hfin hitems
          · next u us hv =>
            by_cases hu : u.kind = .BRACE_END
            · rw [if_pos hu]
              cases hps : skipP ps with
              | nil =>
                rw [hps, view] at hv
                simp at hv
                rw [← hv.1] at hu
                cases hu
              | cons q qs =>
                rw [hps, view] at hv
                simp only [List.cons.injEq] at hv
                obtain ⟨rfl, rfl⟩ := hv
                have hqt : q.text = ['}'] := by
                  rw [hps] at h4
                  exact h4 q (by simp) _ (Piece.kind_ok hu (by decide))
                rw [hps] at h4 h2
                obtain ⟨w2, k1, k2, k3, k4, k5⟩ := skip_view (pre ++ p.text ++ w ++ q.text) qs h4.tail
                rw [k3]
                have hval : ∀ r, Value tombi (Node.obj [] r).toVal ('{' :: (w ++ ['}'])) :=
                  fun r => .objEmpty w h1
                have hrange : (Range.new (p.token (utf8Len pre) (advPos Position.zero pre)).range.start
                    (q.token (utf8Len (pre ++ p.text ++ w))
                      (advPos Position.zero (pre ++ p.text ++ w))).range.stop)
                    = ⟨posOf pre, posOf (pre ++ '{' :: (w ++ ['}']))⟩ := by
                  rw [token_range, token_range]
                  have e : pre ++ p.text ++ w ++ q.text = pre ++ '{' :: (w ++ ['}']) := by
                    simp [htx, hqt]
                  rw [e]
                  exact Range.new_posOf _ _
                refine ⟨'{' :: (w ++ ['}']), w2, skipP qs, ?_, ?_, k1, k4, ?_, hval _, ?_,
                  ⟨List.Pairwise.nil, trivial⟩, hrange, ?_⟩
                · rw [texts_cons, h2, texts_cons, k2, htx, hqt]; simp
                · rw [htx, hqt]; simp
                · rw [hps] at h5; simp at h5 ⊢; omega
                · simp only [Node.toVal, Node.toMembers, nesting, nestingMembers]; omega
                · refine ⟨⟨pre, _, w2 ++ texts (skipP qs), ?_, hval _, hrange⟩, trivial⟩
                  rw [hsrc, texts_cons, h2, texts_cons, k2, htx, hqt]; simp
            · rw [if_neg hu, ← hv]
              exact hfin hitems
        all_goals simp [Sound, errOk]
    · intro d start items pre ps hd hsrc hg hn
      have hV := ihV (d + 1) pre ps hd hsrc hg (by omega)
      rw [parseItems]
      generalize parseValue src n (d + 1) (view pre ps) = res at hV
      match res, hV with
      | .error e, hV => exact hV
      | .ok (_, []), _ => simp [SoundItems, errOk]
      | .ok (v, u :: us), hV =>
        obtain ⟨t, w, ps', hP⟩ := hV
        simp only []
        have hv := hP.rest
        have hsrc1 : src = (pre ++ t ++ w) ++ texts ps' := by rw [hsrc, hP.texts]; simp
        cases ps' with
        | nil =>
          rw [view] at hv
          simp only [List.cons.injEq] at hv
          rw [hv.1]
          simp [SoundItems, errOk]
        | cons p qs =>
          rw [view] at hv
          simp only [List.cons.injEq] at hv
          obtain ⟨rfl, rfl⟩ := hv
          obtain ⟨w1, k1, k2, k3, k4, k5⟩ := skip_view (pre ++ t ++ w ++ p.text) qs hP.good.tail
          have hlen := hP.len
          simp at hlen
          have h0 : tombi.ws [] := TombiWs.nil
          -- the array ends here
          have hend : ∀ (q : Piece) (qs' : List Piece) (pre' t' : List Char),
              Good (q :: qs') → q.text = [']'] → texts ps = t' ++ texts (q :: qs') →
              pre' = pre ++ t' → (q :: qs').length < ps.length → Items tombi [v.toVal] t' →
              SoundItems src d start items pre ps
                (.ok (.arr (items ++ [v]) (Range.new start.start
                  (q.token (utf8Len pre') (advPos Position.zero pre')).range.stop),
                  skipTrivia (view (pre' ++ q.text) qs'))) := by
            intro q qs' pre' t' hgq hqt htx hpre hl hval
            obtain ⟨w2, l1, l2, l3, l4, l5⟩ := skip_view (pre' ++ q.text) qs' hgq.tail
            refine ⟨[v], t', w2, skipP qs', ?_, ?_, ?_, l1, l4, ?_, ?_, ?_, ?_, ?_⟩
            · rw [token_range, hpre, hqt]
            · rw [htx, texts_cons, l2, hqt]; simp
            · rw [l3, hpre, hqt]
            · simp at hl; omega
            · exact hval
            · have := hP.nest
              simp only [Node.toVals, nestings]
              omega
            · exact ⟨hP.keys, trivial⟩
            · exact ⟨hP.inside, trivial⟩
          rw [token_kind]
          by_cases hc : p.kind = .COMMA
          · rw [if_pos hc]
            have hpt : p.text = [','] := hP.good p (by simp) _ (Piece.kind_ok hc (by decide))
            rw [k3]
            have hsrc2 : src = (pre ++ t ++ w ++ p.text ++ w1) ++ texts (skipP qs) := by
              rw [hsrc1, texts_cons, k2]; simp
            have hnext := ihI d start (items ++ [v]) (pre ++ t ++ w ++ p.text ++ w1) (skipP qs) hd
              hsrc2 k4 (by omega)
            have hfin : SoundItems src d start (items ++ [v]) (pre ++ t ++ w ++ p.text ++ w1) (skipP qs)
                (parseItems src n d start (items ++ [v])
                  (view (pre ++ t ++ w ++ p.text ++ w1) (skipP qs))) →
                SoundItems src d start items pre ps
                (parseItems src n d start (items ++ [v])
                  (view (pre ++ t ++ w ++ p.text ++ w1) (skipP qs))) := by
              generalize parseItems src n d start (items ++ [v])
                  (view (pre ++ t ++ w ++ p.text ++ w1) (skipP qs)) = res
              intro hres
              cases res with
              | error e => exact hres
              | ok r =>
                obtain ⟨node, rest⟩ := r
                obtain ⟨xs, t2, w2, ps2, hQ⟩ := hres
                refine ⟨v :: xs, [] ++ (t ++ (w ++ ',' :: (w1 ++ t2))), w2, ps2, ?_, ?_, ?_, hQ.ws,
                  hQ.good, ?_, ?_, ?_, ?_, ?_⟩
                · rw [hQ.node, hpt]; simp
                · rw [hP.texts, texts_cons, k2, hQ.texts, hpt]; simp
                · rw [hQ.rest, hpt]; simp
                · have := hQ.len; omega
                · exact .cons [] t w (w1 ++ t2) _ _ h0 hP.value hP.ws (items_ws k1 hQ.value)
                · have := hP.nest
                  have := hQ.nest
                  simp only [Node.toVals, nestings]
                  omega
                · exact ⟨hP.keys, hQ.keys⟩
                · exact ⟨hP.inside, hQ.inside⟩
            split
            · next hv => rw [← hv]; exact hfin hnext
            · next x xs hv =>
              by_cases hx : x.kind = .BRACKET_END
              · rw [if_pos hx]
                cases hqs : skipP qs with
                | nil =>
                  rw [hqs, view] at hv
                  simp only [List.cons.injEq] at hv
                  rw [← hv.1] at hx
                  cases hx
                | cons q qs' =>
                  rw [hqs] at hv k4 k2 k5
                  rw [view] at hv
                  simp only [List.cons.injEq] at hv
                  obtain ⟨rfl, rfl⟩ := hv
                  have hqt : q.text = [']'] := k4 q (by simp) _ (Piece.kind_ok hx (by decide))
                  refine hend q qs' _ ([] ++ (t ++ (w ++ ',' :: w1))) k4 hqt ?_ ?_ ?_
                    (.trailing [] t w w1 _ trivial h0 hP.value hP.ws k1)
                  · rw [hP.texts, texts_cons, k2, hpt]; simp
                  · rw [hpt]; simp
                  · omega
              · rw [if_neg hx, ← hv]
                exact hfin hnext
          · rw [if_neg hc]
            by_cases hb : p.kind = .BRACKET_END
            · rw [if_pos hb]
              have hpt : p.text = [']'] := hP.good p (by simp) _ (Piece.kind_ok hb (by decide))
              exact hend p qs _ ([] ++ (t ++ w)) hP.good hpt (by rw [hP.texts]; simp) (by simp)
                (by simp; omega) (.one [] t w _ h0 hP.value hP.ws)
            · rw [if_neg hb]; simp [SoundItems, errOk]
    · intro d start ms0 pre ps hd hsrc hg hn
      cases ps with
      | nil => simp [view, parseMembers, SoundMembers, errOk]
      | cons k ps =>
        rw [view, parseMembers, token_kind]
        by_cases hk : k.kind = .STRING
        case neg => rw [if_neg hk]; simp [SoundMembers, errOk]
        rw [if_pos hk]
        have hstr := parseString_sound hsrc hg hk
        generalize parseString src (k.token (utf8Len pre) (advPos Position.zero pre)) = rs at hstr
        cases rs with
        | error e => exact hstr
        | ok key =>
          obtain ⟨b, hkt, hdec⟩ := hstr
          simp only []
          by_cases hh : hasKey key ms0 = true
          case pos => rw [if_pos hh]; simp [SoundMembers, errOk]
          rw [if_neg hh]
          have hfresh : key ∉ ms0.map (·.1) := fun h => hh ((hasKey_iff _ _).mpr h)
          obtain ⟨a1, a2, a3, a4, a5, a6⟩ := skip_view (pre ++ k.text) ps hg.tail
          rw [a4]
          cases hps : skipP ps with
          | nil => simp [view, expect, SoundMembers, errOk]
          | cons c cs =>
            rw [hps] at a3 a5 a6
            rw [view, expect, token_kind]
            by_cases hcol : c.kind = .COLON
            case neg => rw [if_neg hcol]; simp [SoundMembers, errOk]
            rw [if_pos hcol]
            have hct : c.text = [':'] := a5 c (by simp) _ (Piece.kind_ok hcol (by decide))
            obtain ⟨b1, b2, b3, b4, b5, b6⟩ := skip_view (pre ++ k.text ++ a1 ++ c.text) cs a5.tail
            simp only []
            rw [b4]
            have hsrcv : src = (pre ++ k.text ++ a1 ++ c.text ++ b1) ++ texts (skipP cs) := by
              rw [hsrc, texts_cons, a3, texts_cons, b3]; simp
            simp at a6 hn
            have hV := ihV (d + 1) _ _ hd hsrcv b5 (by omega)
            generalize parseValue src n (d + 1)
              (view (pre ++ k.text ++ a1 ++ c.text ++ b1) (skipP cs)) = res at hV
            match res, hV with
            | .error e, hV => exact hV
            | .ok (_, []), _ => simp [SoundMembers, errOk]
            | .ok (v, u :: us), hV =>
              obtain ⟨t0, w, ps', hP⟩ := hV
              -- the text of the member
              have ht : ∃ t, t = '"' :: (b ++ '"' :: (a1 ++ ':' :: (b1 ++ t0))) := ⟨_, rfl⟩
              obtain ⟨t, ht⟩ := ht
              have hmem : Member tombi key v.toVal t := by
                rw [ht]
                exact .mk key b a1 b1 t0 _ hdec a2 b2 hP.value
              have htexts : texts (k :: ps) = t ++ (w ++ texts ps') := by
                rw [texts_cons, a3, texts_cons, b3, hP.texts, ht, hkt, hct]; simp
              have hpret : pre ++ k.text ++ a1 ++ c.text ++ b1 ++ t0 = pre ++ t := by
                rw [ht, hkt, hct]; simp
              have hlen : ps'.length < (k :: ps).length := by
                have := hP.len
                simp; omega
              have hlen' : ps'.length + 2 ≤ ps.length := by
                have := hP.len
                omega
              simp only []
              have hv := hP.rest
              rw [hpret] at hv
              cases ps' with
              | nil =>
                rw [view] at hv
                simp only [List.cons.injEq] at hv
                rw [hv.1]
                simp [SoundMembers, errOk]
              | cons p qs =>
                rw [view] at hv
                simp only [List.cons.injEq] at hv
                obtain ⟨rfl, rfl⟩ := hv
                obtain ⟨w1, k1, k2, k3, k4, k5⟩ := skip_view (pre ++ t ++ w ++ p.text) qs hP.good.tail
                have h0 : tombi.ws [] := TombiWs.nil
                have hsrc1 : src = (pre ++ t ++ w) ++ texts (p :: qs) := by rw [hsrc, htexts]; simp
                simp at hlen'
                -- the object ends here
                have hend : ∀ (q : Piece) (qs' : List Piece) (pre' t' : List Char),
                    Good (q :: qs') → q.text = ['}'] → texts (k :: ps) = t' ++ texts (q :: qs') →
                    pre' = pre ++ t' → (q :: qs').length < (k :: ps).length →
                    Members tombi [(key, v.toVal)] t' →
                    SoundMembers src d start ms0 pre (k :: ps)
                      (.ok (.obj (ms0 ++ [(key, v)]) (Range.new start.start
                        (q.token (utf8Len pre') (advPos Position.zero pre')).range.stop),
                        skipTrivia (view (pre' ++ q.text) qs'))) := by
                  intro q qs' pre' t' hgq hqt htx hpre hl hval
                  obtain ⟨w2, l1, l2, l3, l4, l5⟩ := skip_view (pre' ++ q.text) qs' hgq.tail
                  refine ⟨[(key, v)], t', w2, skipP qs', ?_, ?_, ?_, l1, l4, ?_, ?_, ?_, ?_, ?_, ?_, ?_⟩
                  · rw [token_range, hpre, hqt]
                  · rw [htx, texts_cons, l2, hqt]; simp
                  · rw [l3, hpre, hqt]
                  · simp at hl ⊢; omega
                  · exact hval
                  · have := hP.nest
                    simp only [Node.toMembers, nestingMembers]
                    omega
                  · simp
                  · intro k' hk'
                    simp at hk'
                    rw [hk']
                    exact hfresh
                  · exact ⟨hP.keys, trivial⟩
                  · exact ⟨hP.inside, trivial⟩
                rw [token_kind]
                by_cases hc : p.kind = .COMMA
                · rw [if_pos hc]
                  have hpt : p.text = [','] := hP.good p (by simp) _ (Piece.kind_ok hc (by decide))
                  rw [k3]
                  have hsrc2 : src = (pre ++ t ++ w ++ p.text ++ w1) ++ texts (skipP qs) := by
                    rw [hsrc1, texts_cons, k2]; simp
                  have hnext := ihM d start (ms0 ++ [(key, v)]) (pre ++ t ++ w ++ p.text ++ w1)
                    (skipP qs) hd hsrc2 k4 (by omega)
                  have hfin : SoundMembers src d start (ms0 ++ [(key, v)])
                      (pre ++ t ++ w ++ p.text ++ w1) (skipP qs)
                      (parseMembers src n d start (ms0 ++ [(key, v)])
                        (view (pre ++ t ++ w ++ p.text ++ w1) (skipP qs))) →
                      SoundMembers src d start ms0 pre (k :: ps)
                      (parseMembers src n d start (ms0 ++ [(key, v)])
                        (view (pre ++ t ++ w ++ p.text ++ w1) (skipP qs))) := by
                    generalize parseMembers src n d start (ms0 ++ [(key, v)])
                        (view (pre ++ t ++ w ++ p.text ++ w1) (skipP qs)) = res
                    intro hres
                    cases res with
                    | error e => exact hres
                    | ok r =>
                      obtain ⟨node, rest⟩ := r
                      obtain ⟨xs, t2, w2, ps2, hQ⟩ := hres
                      refine ⟨(key, v) :: xs, [] ++ (t ++ (w ++ ',' :: (w1 ++ t2))), w2, ps2, ?_, ?_,
                        ?_, hQ.ws, hQ.good, ?_, ?_, ?_, ?_, ?_, ?_, ?_⟩
                      · rw [hQ.node, hpt]; simp
                      · rw [htexts, texts_cons, k2, hQ.texts, hpt]; simp
                      · rw [hQ.rest, hpt]; simp
                      · have := hQ.len; simp; omega
                      · exact .cons [] t w (w1 ++ t2) _ _ _ h0 hmem hP.ws (members_ws k1 hQ.value)
                      · have := hP.nest
                        have := hQ.nest
                        simp only [Node.toMembers, nestingMembers]
                        omega
                      · rw [List.map_cons, List.nodup_cons]
                        refine ⟨fun hin => ?_, hQ.distinct⟩
                        exact hQ.fresh key hin (by simp)
                      · intro k' hk'
                        rw [List.map_cons, List.mem_cons] at hk'
                        rcases hk' with rfl | hk'
                        · exact hfresh
                        · intro hin
                          exact hQ.fresh k' hk' (by rw [List.map_append]; simp only [List.mem_append]; exact .inl hin)
                      · exact ⟨hP.keys, hQ.keys⟩
                      · exact ⟨hP.inside, hQ.inside⟩
                  split
                  · next hv => rw [← hv]; exact hfin hnext
                  · next x xs hv =>
                    by_cases hx : x.kind = .BRACE_END
                    · rw [if_pos hx]
                      cases hqs : skipP qs with
                      | nil =>
                        rw [hqs, view] at hv
                        simp only [List.cons.injEq] at hv
                        rw [← hv.1] at hx
                        cases hx
                      | cons q qs' =>
                        rw [hqs] at hv k4 k2 k5
                        rw [view] at hv
                        simp only [List.cons.injEq] at hv
                        obtain ⟨rfl, rfl⟩ := hv
                        have hqt : q.text = ['}'] := k4 q (by simp) _ (Piece.kind_ok hx (by decide))
                        refine hend q qs' _ ([] ++ (t ++ (w ++ ',' :: w1))) k4 hqt ?_ ?_ ?_
                          (.trailing [] t w w1 _ _ trivial h0 hmem hP.ws k1)
                        · rw [htexts, texts_cons, k2, hpt]; simp
                        · rw [hpt]; simp
                        · simp at k5 ⊢; omega
                    · rw [if_neg hx, ← hv]
                      exact hfin hnext
                · rw [if_neg hc]
                  by_cases hb : p.kind = .BRACE_END
                  · rw [if_pos hb]
                    have hpt : p.text = ['}'] := hP.good p (by simp) _ (Piece.kind_ok hb (by decide))
                    exact hend p qs _ ([] ++ (t ++ w)) hP.good hpt (by rw [htexts]; simp) (by simp)
                      (by simp; omega) (.one [] t w _ _ h0 hmem hP.ws)
                  · rw [if_neg hb]; simp [SoundMembers, errOk]

end Tombi.Json
