import Verif.Proofs.FormatRead
import Verif.Proofs.Formatter
/-! What the formatter prints for values and groups is read back as the same values and groups. -/
namespace Tombi.Formatter
open SyntaxKind
open Tombi.PM (NT)
open View (hd leaf isLead isSep dangLen isLiteral)
open Tombi.Format (AstKey)

/-! ### what is read back -/

mutual
/-- `n'` is what is read back from what is printed for `n`. -/
def NormN (E : Env) : Node → Node → Prop
  | .lit l k t tr, n' => n' = .lit (E.rl l) (E.litKind k t) (E.literalText k t) (E.rt tr)
  | .array l s b tr, n' => ∃ b' multi, n' = .array (E.rl l) (E.rt s) b' (E.rt tr) ∧
      (multi = false → E.arrayMultiline s b = false) ∧ (E.defs.lineWidth = none → multi = E.arrayMultiline s b) ∧
      (multi = true → NormB E .start b b') ∧ (multi = false → NormF E true b b')
  | .table l s b tr, n' => ∃ b' multi, n' = .table (E.rl l) (E.rt s) b' (E.rt tr) ∧
      (multi = false → E.tableMultiline s b = false) ∧ (E.defs.lineWidth = none → multi = E.tableMultiline s b) ∧
      (multi = true → NormB E .start b b') ∧ (multi = false → NormF E true b b')
  | .pair l ks _ v, n' => ∃ src v', n' = .pair (E.rl l) (ks.map E.rk) src v' ∧ NormN E v v'
/-- The same for the groups of a value on several lines. -/
def NormB (E : Env) (prev : Prev) : Body → Body → Prop
  | .nil, b' => b' = .nil
  | .dangling n cs rest, b' => ∃ rest', b' = .dangling (E.blank prev n) (E.rl cs) rest' ∧ NormB E .dangling rest rest'
  | .item first n c rest, b' => ∃ n' rest', b' = .item (first.map (E.blank prev)) n' (c.map E.rc) rest' ∧ NormN E n n' ∧
      NormB E .item rest rest'
/-- The same for the items of a value on one line. -/
def NormF (E : Env) (first : Bool) : Body → Body → Prop
  | .nil, b' => b' = .nil
  | .dangling _ _ rest, b' => NormF E first rest b'
  | .item _ n _ rest, b' => ∃ n' rest', b' = .item (if first then some 0 else none) n'
      (if rest.hasItem then some ⟨[], none⟩ else none) rest' ∧ NormN E n n' ∧ NormF E false rest rest'
end

/-- A trailing comment after a node that has none. -/
def Node.addTrailing (c : Option Text) : Node → Node
  | .lit l k t tr => .lit l k t (tr.or c)
  | .array l s b tr => .array l s b (tr.or c)
  | .table l s b tr => .table l s b (tr.or c)
  | .pair l ks src v => .pair l ks src (v.addTrailing c)

theorem addTrailing_none (n : Node) : n.addTrailing none = n := by
  cases n with
  | pair l ks src v => rw [Node.addTrailing, addTrailing_none v]
  | _ => rw [Node.addTrailing, Option.or_none]

theorem addTrailing_isPair (n : Node) (c : Option Text) : (n.addTrailing c).isPair = n.isPair := by
  cases n <;> rfl

/-- The grammar that an item belongs to. -/
def GramOf (G : Gram) : Node → Prop
  | .pair .. => G.item = .keyValue ∧ G.first = TS_KEY_FIRST
  | _ => G = gArr

theorem trailW_app {a c : Option Text} {w1 w2 : View} (h1 : TrailW a w1) (h2 : TrailW c w2) (h : a = none ∨ c = none) :
    TrailW (a.or c) (w1 ++ w2) := by
  cases a with
  | none =>
    have h1 : w1 = [] := h1
    subst h1
    exact h2
  | some a =>
    rcases h with h | h
    · cases h
    · subst h
      have h2 : w2 = [] := h2
      subst h2
      rw [List.append_nil]
      exact h1

theorem rt_none {E : Env} {a c : Option Text} (h : a = none ∨ c = none) : E.rt a = none ∨ c = none := by
  rcases h with rfl | h
  · exact .inl rfl
  · exact .inr h

/-- What is printed for an item. -/
structure NodeRd (E : Env) (d : Nat) (n : Node) (w : View) (n' : Node) : Prop where
  norm : NormN E n n'
  pair : n'.isPair = n.isPair
  lead : n.leading = [] → isLead (hd w) = false
  item : ∀ G c wt, GramOf G n → TrailW c wt → (n.trailing = none ∨ c = none) → ItemRd G d (w ++ wt) (n'.addTrailing c)

theorem NodeRd.plain {E : Env} {d : Nat} {n n' : Node} {w : View} (h : NodeRd E d n w n') {G : Gram} (hG : GramOf G n) :
    ItemRd G d w n' := by
  have := h.item G none [] hG rfl (.inr rfl)
  rwa [List.append_nil, addTrailing_none] at this

/-- The comma of an item of a value on several lines. -/
theorem comma_read {E : Env} (hE : E.Laid) {G : Gram} (hG : G.Ok) {pre : List Piece} {dep : Nat} {al : Option Nat} {hasT : Bool}
    {c : Option Comma} {w v v' : View} {d k : Nat} {b : Body} (h : Shows (E.comma pre dep al hasT c) w)
    (hr : RestRd G d v b k v') : AfterRd G d (w ++ v) (c.map E.rc) b k v' := by
  cases c with
  | none =>
    have h : w = [] := h
    subst h
    exact afterRd_none hG hr
  | some c =>
    unfold Env.comma at h
    simp only at h
    obtain ⟨w1, wt, rfl, h1, h2⟩ := h.app
    obtain ⟨w0, w1, rfl, h0, h1⟩ := h1.app
    obtain ⟨x, w2, rfl, hx, -, h3⟩ := h1.token (by decide)
    have h3 : w2 = [] := h3
    subst h3
    have ht := h2.trailing hE.skip
    obtain ⟨p, u, rfl, hp, hu, hc⟩ : ∃ p u, w0 = p ++ u ∧ AllLb p ∧ LeadW (E.rl c.leading) u ∧ (u ≠ [] → p ≠ []) := by
      split at h0
      · obtain ⟨y, w3, rfl, hy, h3⟩ := Shows.newline h0
        obtain ⟨w4, w5, rfl, h4, h5⟩ := h3.app
        have h5 : w5 = [] := h5.indent
        subst h5
        exact ⟨[y], w4, by simp, (fun z hz => by rw [List.mem_singleton.mp hz]; exact hy), h4.leading hE.skip, by simp⟩
      · rename_i hl
        have hl : c.leading = [] := by simpa using hl
        rw [hl]
        split at h0
        · obtain ⟨y, w3, rfl, hy, h3⟩ := Shows.newline h0
          have h3 : w3 = [] := h3.indent
          subst h3
          exact ⟨[y], [], by simp, (fun z hz => by rw [List.mem_singleton.mp hz]; exact hy), rfl, by simp⟩
        · have h0 : w0 = [] := h0
          subst h0
          exact ⟨[], [], rfl, (fun z hz => by cases hz), rfl, by simp⟩
    have e : p ++ u ++ [x] ++ wt ++ v = p ++ (u ++ x :: (wt ++ v)) := by simp
    rw [e]
    refine afterRd_comma hG (c := E.rc c) hp hu hx ht ?_ hr
    cases p with
    | cons y p => show y.kind ≠ _; rw [hp y (by simp)]; decide
    | nil =>
      have : u = [] := by
        cases u with
        | nil => rfl
        | cons a u => exact absurd rfl (hc (by simp))
      subst this
      show x.kind ≠ _
      rw [hx]
      decide

theorem TailOk.arr {G : Gram} {e y : VTok} {last : Prev} {rest : View} (hy : y.kind = LINE_BREAK)
    (hG : G.end_.contains e.kind = true) (hl : isLead e.kind = false) (hc : e.kind ≠ COMMA) (he : TS_DANGLING_COMMENT_GROUP_END.contains e.kind = true) :
    TailOk G last (y :: e :: rest) := by
  have hne : e.kind ≠ COMMENT := by intro h; rw [h] at hl; cases hl
  have hnb : e.kind ≠ LINE_BREAK := by intro h; rw [h] at hl; cases hl
  have hsk : skip (y :: e :: rest) = e :: rest := by rw [skip, if_pos hy, skip, if_neg hnb]
  have hpk : View.peek (y :: e :: rest) = e :: rest := by
    rw [← peek_skip, hsk]
    exact peek_self (by exact hnb) (by exact hne)
  refine ⟨?_, ?_, ?_, fun _ => ⟨?_, fun _ => ?_⟩, fun _ => ⟨hy, he⟩⟩
  · rw [hpk]; exact hG
  · rw [hpk]; exact hc
  · rw [hsk]
    unfold dangLen
    rw [if_neg (by exact hne)]
  · show y.kind ≠ _; rw [hy]; decide
  · show TS_LINE_END.contains y.kind = true; rw [hy]; decide

mutual
theorem nestedTooLong_none {E : Env} (hE : E.defs.lineWidth = none) {pre : List Piece} {d : Nat} {skip : Bool} :
    (n : Node) → nestedTooLong E pre d skip n = true → n.multiline E.version = true
  | .lit _ _ _ _, h => by rw [nestedTooLong] at h; cases h
  | .array _ s b _, h => by
    rw [nestedTooLong, Bool.or_eq_true] at h
    rw [Node.multiline]
    rcases h with h | h
    · exact h
    · simp [tooLong_none hE b h]
  | .table _ s b _, h => by
    rw [nestedTooLong, Bool.or_eq_true] at h
    rw [Node.multiline]
    rcases h with h | h
    · exact h
    · rw [Bool.and_eq_true] at h
      rw [if_neg (by simpa using h.1)]
      simp [tooLong_none hE b h.2]
  | .pair _ _ _ v, h => by
    rw [nestedTooLong] at h
    rw [Node.multiline]
    exact nestedTooLong_none hE v h
theorem tooLong_none {E : Env} (hE : E.defs.lineWidth = none) {pre : List Piece} {d : Nat} {skip : Bool} {len : Nat} {first : Bool}
    {cs tail : Nat} : (b : Body) → tooLong E pre d skip len first cs tail b = true → b.multiline E.version = true
  | .nil, h => by rw [tooLong, hE] at h; cases h
  | .dangling _ _ rest, _ => rfl
  | .item _ n _ rest, h => by
    rw [tooLong, Bool.or_eq_true] at h
    rw [Body.multiline, Bool.or_eq_true]
    rcases h with h | h
    · exact .inl (nestedTooLong_none hE n h)
    · exact .inr (tooLong_none hE rest h)
end

theorem noDirect_of_noComment {pairs : Bool} {d : Nat} {prev : Prev} (b : Body) (hwf : b.WF pairs d prev) (h : b.hasComment = false) :
    b.hasDirectComment = false := by
  match b with
  | .nil => rfl
  | .dangling n cs rest =>
    rw [Body.hasComment] at h
    rw [Body.WF] at hwf
    simp [hwf.1] at h
  | .item first n c rest =>
    rw [Body.hasComment] at h
    rw [Body.WF] at hwf
    simp only [Bool.or_eq_false_iff] at h
    rw [Body.hasDirectComment, leading_words_of_noComment n h.1.1, trailing_none_of_noComment n h.1.1, h.1.2,
      noDirect_of_noComment rest hwf.2.2.2 h.2]
    rfl

/-- The grammar of the items of a body. -/
def GramP (G : Gram) (pairs : Bool) : Prop := if pairs then G.item = .keyValue ∧ G.first = TS_KEY_FIRST else G = gArr

theorem GramP.of {G : Gram} {pairs : Bool} (h : GramP G pairs) {n : Node} (hn : n.isPair = pairs) : GramOf G n := by
  subst hn
  cases n <;> exact h

theorem head_read {E : Env} (hE : E.Laid) {dep : Nat} {skip : Bool} {l : List Text} {k : SyntaxKind} {t : Text}
    (hk : k ≠ DOUBLE_BRACKET_START ∧ k ≠ DOUBLE_BRACKET_END ∧ k ≠ BARE_KEY) {w : View}
    (h : Shows (E.leading dep skip l ++ E.writeIndent dep (E.skipAfter skip l) ++ [.token k t]) w) :
    ∃ u o, w = u ++ [o] ∧ LeadW (E.rl l) u ∧ o.kind = k ∧ o.text = t := by
  obtain ⟨w1, w2, rfl, h1, h2⟩ := h.app
  obtain ⟨u, w3, rfl, h3, h4⟩ := h1.app
  have h4 := h4.writeIndent
  subst h4
  obtain ⟨o, w', rfl, ho, ht, h5⟩ := h2.token hk
  have h5 : w' = [] := h5
  subst h5
  exact ⟨u, o, by simp, h3.leading hE.skip, ho, ht⟩

theorem Shows.text {E : Env} {ps : List Piece} {w : View} (h : Shows ps w) (hp : ∀ p ∈ ps, ∃ k t, p = .token k t ∧ k ≠ DOUBLE_BRACKET_START ∧ k ≠ DOUBLE_BRACKET_END) :
    viewText w = textOf E.lineEnding ps := by
  induction ps generalizing w with
  | nil => have h : w = [] := h; subst h; rfl
  | cons p ps ih =>
    obtain ⟨a, b, rfl, h1, h2⟩ := h
    obtain ⟨k, t, rfl, hk1, hk2⟩ := hp p (by simp)
    have ha : viewText a = t := by
      simp only [Show1] at h1
      rw [if_neg hk1, if_neg hk2] at h1
      split at h1
      · obtain ⟨x, rfl, hx, -⟩ := h1
        simp [viewText, hx]
      · obtain ⟨x, rfl, -, hx⟩ := h1
        simp [viewText, hx]
    have e : viewText (a ++ b) = viewText a ++ viewText b := by simp [viewText]
    rw [e, ha, ih h2 fun p hp' => hp p (by simp [hp'])]
    simp [textOf, Piece.text]

theorem keyList_tokens (E : Env) (ks : List AstKey) :
    ∀ p ∈ E.keyList ks, ∃ k t, p = .token k t ∧ k ≠ DOUBLE_BRACKET_START ∧ k ≠ DOUBLE_BRACKET_END := by
  have hkey : ∀ k, ∃ k' t, E.key k = .token k' t ∧ k' ≠ DOUBLE_BRACKET_START ∧ k' ≠ DOUBLE_BRACKET_END := by
    intro k
    refine ⟨_, _, rfl, ?_⟩
    unfold writtenKind
    split
    · decide
    · decide
    · cases k <;> exact ⟨by simp [keyKind], by simp [keyKind]⟩
  induction ks with
  | nil => intro p hp; cases hp
  | cons k ks ih =>
    intro p hp
    cases ks with
    | nil =>
      have hp : p ∈ [E.key k] := hp
      rw [List.mem_singleton.mp hp]
      exact hkey k
    | cons k' ks =>
      have hp : p ∈ E.key k :: .token DOT ['.'] :: E.keyList (k' :: ks) := hp
      rcases List.mem_cons.mp hp with rfl | hp
      · exact hkey k
      · rcases List.mem_cons.mp hp with rfl | hp
        · exact ⟨_, _, rfl, by decide, by decide⟩
        · exact ih p hp

theorem Shows.keysText {E : Env} {ks : List AstKey} {eqw : Option Nat} {w : View} (h : Shows (E.keys ks eqw) w) :
    viewText w = textOf E.lineEnding (E.keyList ks) := by
  unfold Env.keys at h
  cases eqw with
  | none => exact Shows.text h (keyList_tokens E ks)
  | some n =>
    obtain ⟨w1, w2, rfl, h1, h2⟩ := Shows.app h
    have h2 : w2 = [] := h2.spaces
    subst h2
    rw [List.append_nil]
    exact Shows.text h1 (keyList_tokens E ks)

theorem rl_nil {E : Env} {l : List Text} (h : l = []) : E.rl l = [] := by subst h; rfl

theorem lead_head {cs : List Text} {u : View} (hu : LeadW cs u) (hcs : cs = []) {x : VTok} (hx : isLead x.kind = false) (w : View) :
    isLead (hd (u ++ x :: w)) = false := by
  subst hcs
  have hu : u = [] := hu
  subst hu
  exact hx

/-- An array or an inline table. -/
theorem nest_read {E : Env} (hE : E.Laid) {G : Gram} (hG : G.Ok) {dep d : Nat} {skip : Bool} {l : List Text} {s tr : Option Text}
    {b : Body} {pre1 pre2 pre3 pre5 : List Piece} {al eqw : Option Nat} {ko ke : SyntaxKind} {to te : Text} {w : View} {sp bs : Nat} {multi0 : Bool}
    (hko : ko ≠ DOUBLE_BRACKET_START ∧ ko ≠ DOUBLE_BRACKET_END ∧ ko ≠ BARE_KEY ∧ isLead ko = false)
    (hke : ke ≠ DOUBLE_BRACKET_START ∧ ke ≠ DOUBLE_BRACKET_END ∧ ke ≠ BARE_KEY)
    (hke' : G.end_.contains ke = true ∧ isLead ke = false ∧ ke ≠ COMMA ∧ TS_DANGLING_COMMENT_GROUP_END.contains ke = true)
    (hgroups : ∀ w, Shows (fmtGroups E pre2 (dep + 1) false eqw al b) w → ∃ b', NormB E .start b b' ∧
      ∀ T, TailOk G (b.last .start) T → BodyRd G (d + 1) .start (w ++ T) b' (lbs T) (Formatter.skip T))
    (hitems : multi0 = false → ∀ w, Shows (fmtItems E pre3 dep true al sp b) w → ∃ b', NormF E true b b' ∧
      ∀ e rest, e.kind = ke → hd (w ++ e :: rest) ≠ COMMENT ∧ ∃ k, LoopRd G (d + 1) (w ++ e :: rest) 0 b' k (e :: rest))
    (hnil : multi0 = false → b.hasItem = false → b = .nil) (hs : multi0 = false → s = none)
    (hw : Shows ((if multi0 = true then
        E.leading dep skip l ++ E.writeIndent dep (E.skipAfter skip l) ++ [.token ko to] ++ E.trailing pre1 al s ++ [.newline]
          ++ fmtGroups E pre2 (dep + 1) false eqw al b ++ [.newline, E.indent dep, .token ke te]
      else if b.hasItem = true then
        E.leading dep skip l ++ E.writeIndent dep (E.skipAfter skip l) ++ [.token ko to] ++ [spaces bs]
          ++ fmtItems E pre3 dep true al sp b ++ [spaces bs, .token ke te]
      else E.leading dep skip l ++ E.writeIndent dep (E.skipAfter skip l) ++ [.token ko to] ++ [.token ke te])
        ++ E.trailing pre5 al tr) w) :
    ∃ b' u o ws wb e wt, w = u ++ o :: (ws ++ (wb ++ e :: wt)) ∧ LeadW (E.rl l) u ∧ o.kind = ko ∧ TrailW (E.rt s) ws ∧
      (∀ rest, hd (wb ++ e :: rest) ≠ COMMENT ∧ ∃ k, LoopRd G (d + 1) (wb ++ e :: rest) 0 b' k (e :: rest)) ∧ e.kind = ke ∧
      TrailW (E.rt tr) wt ∧ (multi0 = true → NormB E .start b b') ∧ (multi0 = false → NormF E true b b') := by
  obtain ⟨w1, wt, rfl, h1, h2⟩ := hw.app
  have ht := h2.trailing hE.skip
  have hkeb : ke ≠ LINE_BREAK ∧ ke ≠ COMMENT := by
    have := hke'.2.1
    constructor <;> (intro h; rw [h] at this; cases this)
  cases hm : multi0 with
  | true =>
    rw [if_pos hm] at h1
    obtain ⟨w1, w2, rfl, h1, h3⟩ := h1.app
    obtain ⟨w1, wg, rfl, h1, h4⟩ := h1.app
    obtain ⟨w1, w5, rfl, h1, h5⟩ := h1.app
    obtain ⟨w1, ws, rfl, h1, h6⟩ := h1.app
    obtain ⟨u, o, rfl, hu, ho, -⟩ := head_read hE ⟨hko.1, hko.2.1, hko.2.2.1⟩ h1
    have hs := h6.trailing hE.skip
    obtain ⟨y, w6, rfl, hy, h7⟩ := h5.newline
    have h7 : w6 = [] := h7
    subst h7
    obtain ⟨z, w7, rfl, hz, h8⟩ := h3.newline
    obtain ⟨e, w8, rfl, he, -, h9⟩ := h8.indent.token hke
    have h9 : w8 = [] := h9
    subst h9
    obtain ⟨b', hb', hrd⟩ := hgroups wg h4
    refine ⟨b', u, o, ws, y :: (wg ++ [z]), e, wt, by simp, hu, ho, hs, fun rest => ⟨?_, ?_⟩, he, ht, fun _ => hb', fun h => by cases h⟩
    · show y.kind ≠ _; rw [hy]; decide
    · have hT : TailOk G (b.last .start) (z :: e :: rest) :=
        TailOk.arr hz (by rw [he]; exact hke'.1) (by rw [he]; exact hke'.2.1) (by rw [he]; exact hke'.2.2.1) (by rw [he]; exact hke'.2.2.2)
      obtain ⟨k, hk, -⟩ := hrd _ hT 1 (Nat.le_refl _)
      have hsk : Formatter.skip (z :: e :: rest) = e :: rest := by
        rw [Formatter.skip, if_pos hz, Formatter.skip, if_neg (by rw [he]; exact hkeb.1)]
      rw [hsk] at hk
      refine ⟨k, ?_⟩
      have := loop_lb' hG hy (br := 0) hk
      simpa using this
  | false =>
    rw [hm, if_neg (by decide)] at h1
    have hs := hs hm
    subst hs
    by_cases hi : b.hasItem = true
    · rw [if_pos hi] at h1
      obtain ⟨w1, w2, rfl, h1, h3⟩ := h1.app
      obtain ⟨w1, wg, rfl, h1, h4⟩ := h1.app
      obtain ⟨w1, w5, rfl, h1, h5⟩ := h1.app
      obtain ⟨u, o, rfl, hu, ho, -⟩ := head_read hE ⟨hko.1, hko.2.1, hko.2.2.1⟩ h1
      have h5 : w5 = [] := h5.spaces
      subst h5
      obtain ⟨e, w8, rfl, he, -, h9⟩ := h3.spaces.token hke
      have h9 : w8 = [] := h9
      subst h9
      obtain ⟨b', hb', hrd⟩ := hitems hm wg h4
      exact ⟨b', u, o, [], wg, e, wt, by simp, hu, ho, rfl, fun rest => hrd e rest he, he, ht, (fun h => by cases h), fun _ => hb'⟩
    · rw [if_neg hi] at h1
      obtain ⟨w1, w2, rfl, h1, h3⟩ := h1.app
      obtain ⟨u, o, rfl, hu, ho, -⟩ := head_read hE ⟨hko.1, hko.2.1, hko.2.2.1⟩ h1
      obtain ⟨e, w8, rfl, he, -, h9⟩ := h3.token hke
      have h9 : w8 = [] := h9
      subst h9
      have hb := hnil hm (by simpa using hi)
      subst hb
      refine ⟨.nil, u, o, [], [], e, wt, by simp, hu, ho, rfl, fun rest => ⟨?_, 0, ?_⟩, he, ht, (fun h => by cases h), fun _ => rfl⟩
      · show e.kind ≠ _; rw [he]; exact hkeb.2
      · refine loop_end' hG (by show e.kind ≠ _; rw [he]; exact hkeb.1) ?_ ?_
        · unfold dangLen
          rw [if_neg (by show ¬ e.kind = _; rw [he]; exact hkeb.2)]
        · rw [List.nil_append, peek_self (by show e.kind ≠ _; rw [he]; exact hkeb.1) (by show e.kind ≠ _; rw [he]; exact hkeb.2)]
          show G.end_.contains e.kind = true
          rw [he]
          exact hke'.1

theorem multi_long {E : Env} {s : Option Text} {b : Body} {long : Bool} (hs : E.singleLine = false)
    (hl : E.defs.lineWidth = none → long = true → E.arrayMultiline s b = true) :
    ((!E.singleLine && (E.arrayMultiline s b || long)) = false → E.arrayMultiline s b = false) ∧
    (E.defs.lineWidth = none → (!E.singleLine && (E.arrayMultiline s b || long)) = E.arrayMultiline s b) := by
  rw [hs]
  cases ha : E.arrayMultiline s b <;> cases long <;> simp_all

theorem multi_long' {E : Env} {s : Option Text} {b : Body} {long : Bool} (hs : E.singleLine = false)
    (hl : E.defs.lineWidth = none → long = true → E.tableMultiline s b = true) :
    ((!E.singleLine && (E.tableMultiline s b || long)) = false → E.tableMultiline s b = false) ∧
    (E.defs.lineWidth = none → (!E.singleLine && (E.tableMultiline s b || long)) = E.tableMultiline s b) := by
  rw [hs]
  cases ha : E.tableMultiline s b <;> cases long <;> simp_all

theorem nil_of_noItem {b : Body} (h : b.hasDirectComment = false) (hi : b.hasItem = false) : b = .nil := by
  cases b with
  | nil => rfl
  | dangling => cases h
  | item => cases hi

theorem array_flat {E : Env} {s : Option Text} {b : Body} {d : Nat} (hwf : b.WF false d .start) (h : E.arrayMultiline s b = false) :
    s = none ∧ b.hasDirectComment = false := by
  unfold Env.arrayMultiline at h
  simp only [Bool.or_eq_false_iff] at h
  refine ⟨?_, noDirect_of_noComment b hwf h.2.2⟩
  cases s with
  | none => rfl
  | some _ => cases h.2.1

theorem table_flat {E : Env} {s : Option Text} {b : Body} {d : Nat} (hwf : b.WF true d .start) (h : E.tableMultiline s b = false) :
    s = none ∧ b.hasDirectComment = false := by
  unfold Env.tableMultiline at h
  split at h
  · simp only [Bool.or_eq_false_iff] at h
    refine ⟨?_, h.2⟩
    cases s with
    | none => rfl
    | some _ => cases h.1
  · simp only [Bool.or_eq_false_iff] at h
    refine ⟨?_, noDirect_of_noComment b hwf h.2.2⟩
    cases s with
    | none => rfl
    | some _ => cases h.2.1

mutual
theorem fmt_read {E : Env} (hE : E.Laid) {d : Nat} {pre : List Piece} {dep : Nat} {skip : Bool} {eqw al : Option Nat} {w : View} :
    (n : Node) → n.WF d → Shows (fmt E pre dep skip eqw al n) w → ∃ n', NodeRd E d n w n'
  | .lit l k t tr, hwf, h => by
    rw [Node.WF] at hwf
    rw [fmt] at h
    obtain ⟨w1, wt, rfl, h1, h2⟩ := Shows.app h
    obtain ⟨w1, w2, rfl, h1, h3⟩ := h1.app
    obtain ⟨u, w3, rfl, h4, h5⟩ := h1.app
    have h5 := h5.writeIndent
    subst h5
    obtain ⟨x, w', rfl, hx, hxt, h6⟩ := h3.literal hwf
    have h6 : w' = [] := h6
    subst h6
    have hu := h4.leading hE.skip
    have ht := h2.trailing hE.skip
    have hxl : isLiteral x.kind = true := by rw [hx]; exact litKind_literal hwf t
    refine ⟨.lit (E.rl l) (E.litKind k t) (E.literalText k t) (E.rt tr), rfl, rfl, fun hl => ?_, fun G c wt' hG hc hn => ?_⟩
    · have := lead_head hu (rl_nil hl) (isLiteral_facts hxl).1 wt
      simpa using this
    · have hG : G = gArr := hG
      subst hG
      have := itemRd_lit (d := d) hu hxl (trailW_app ht hc (rt_none hn))
      rw [hx, hxt] at this
      simpa [Node.addTrailing] using this
  | .array l s b tr, hwf, h => by
    rw [Node.WF] at hwf
    rw [fmt] at h
    simp only at h
    have hml := multi_long (E := E) (s := s) (b := b) hE.single
      (long := tooLong E pre dep skip (E.lineWidth pre + 2 + E.defs.arrayBracketSpace * 2) true E.defs.arrayCommaSpace (E.trailingWidth tr) b)
      (fun hn hl => by
        unfold Env.arrayMultiline
        rw [tooLong_none hn b hl]
        simp)
    obtain ⟨b', u, o, ws, wb, e, wt, rfl, hu, ho, hs, hb, he, ht, hB, hF⟩ :=
      nest_read (d := d) hE gArr_ok (by decide) (by decide) (by decide)
        (fun w hw => fmtGroups_read hE (G := gArr) gArr_ok (pairs := false) rfl b hwf.2 hw)
        (fun hm w hw => by
          obtain ⟨b', h1, h2⟩ := fmtItems_read hE (G := gArr) gArr_ok (pairs := false) rfl rfl b hwf.2 (array_flat hwf.2 (hml.1 hm)).2 hw
          exact ⟨b', h1, fun e rest he => (h2 e rest (by rw [he]; decide)).1 rfl⟩)
        (fun hm => nil_of_noItem (array_flat hwf.2 (hml.1 hm)).2)
        (fun hm => (array_flat hwf.2 (hml.1 hm)).1) h
    refine ⟨.array (E.rl l) (E.rt s) b' (E.rt tr), ⟨b', _, rfl, hml.1, hml.2, hB, hF⟩, rfl, fun hl => ?_, fun G c wt' hG hc hn => ?_⟩
    · exact lead_head hu (rl_nil hl) (by rw [ho]; decide) _
    · have hG : G = gArr := hG
      subst hG
      have := itemRd_array hwf.1 hu ho hs hb he (trailW_app ht hc (rt_none hn))
      simpa [Node.addTrailing] using this
  | .table l s b tr, hwf, h => by
    rw [Node.WF] at hwf
    rw [fmt] at h
    simp only at h
    have hml := multi_long' (E := E) (s := s) (b := b) hE.single
      (long := E.version ≠ .V1_0_0 && tooLong E pre dep skip (E.lineWidth pre + 2 + E.defs.inlineTableBraceSpace * 2) true E.defs.inlineTableCommaSpace (E.trailingWidth tr) b)
      (fun hn hl => by
        rw [Bool.and_eq_true] at hl
        unfold Env.tableMultiline
        rw [if_neg (by simpa using hl.1), tooLong_none hn b hl.2]
        simp)
    obtain ⟨b', u, o, ws, wb, e, wt, rfl, hu, ho, hs, hb, he, ht, hB, hF⟩ :=
      nest_read (d := d) hE gInl_ok (by decide) (by decide) (by decide)
        (fun w hw => fmtGroups_read hE (G := gInl) gInl_ok (pairs := true) ⟨rfl, rfl⟩ b hwf.2 hw)
        (fun hm w hw => by
          obtain ⟨b', h1, h2⟩ := fmtItems_read hE (G := gInl) gInl_ok (pairs := true) ⟨rfl, rfl⟩ rfl b hwf.2 (table_flat hwf.2 (hml.1 hm)).2 hw
          exact ⟨b', h1, fun e rest he => (h2 e rest (by rw [he]; decide)).1 rfl⟩)
        (fun hm => nil_of_noItem (table_flat hwf.2 (hml.1 hm)).2)
        (fun hm => (table_flat hwf.2 (hml.1 hm)).1) h
    refine ⟨.table (E.rl l) (E.rt s) b' (E.rt tr), ⟨b', _, rfl, hml.1, hml.2, hB, hF⟩, rfl, fun hl => ?_, fun G c wt' hG hc hn => ?_⟩
    · exact lead_head hu (rl_nil hl) (by rw [ho]; decide) _
    · have hG : G = gArr := hG
      subst hG
      have := itemRd_table hwf.1 hu ho hs hb he (trailW_app ht hc (rt_none hn))
      simpa [Node.addTrailing] using this
  | .pair l ks src v, hwf, h => by
    rw [Node.WF] at hwf
    rw [fmt] at h
    obtain ⟨w1, wv, rfl, h1, h2⟩ := Shows.app h
    obtain ⟨w1, w3, rfl, h1, h3⟩ := h1.app
    obtain ⟨w1, kw, rfl, h1, h4⟩ := h1.app
    obtain ⟨u, w5, rfl, h0, h5⟩ := h1.app
    have h5 := h5.writeIndent
    subst h5
    obtain ⟨e, w6, rfl, he, -, h6⟩ := h3.spaces.token (by decide)
    have h6 : w6 = [] := h6.spaces
    subst h6
    obtain ⟨v', hv⟩ := fmt_read hE (d := d) v hwf.2.2.2 h2
    have hu := h0.leading hE.skip
    have hk := h4.keys hwf.1
    have htx := h4.keysText
    have ew : ∀ wv, u ++ [] ++ kw ++ [e] ++ wv = u ++ (kw ++ e :: wv) := by simp
    refine ⟨.pair (E.rl l) (ks.map E.rk) (textOf E.lineEnding (E.keyList ks)) v', ⟨_, v', rfl, hv.norm⟩, rfl, fun hl => ?_,
      fun G c wt hG hc hn => ?_⟩
    · obtain ⟨x, kw', rfl, hx⟩ := hk.first
      rw [ew]
      exact lead_head hu (rl_nil hl) (by revert hx; cases x.kind <;> decide) _
    · have hg : GramOf gArr v := by cases v with
        | pair => cases hwf.2.1
        | _ => rfl
      have hi := hv.item gArr c wt hg hc hn
      have hl : isLead (hd (wv ++ wt)) = false := by
        have := hv.lead hwf.2.2.1
        obtain ⟨cs, u, x, w', e, -, -⟩ := (hv.plain hg).start
        cases hw : wv with
        | nil => rw [hw] at e; simp at e
        | cons y wv => rw [hw] at this; exact this
      have := itemRd_pair hG hu hk he hi hl (by rw [addTrailing_isPair, hv.pair]; exact hwf.2.1)
      rw [htx] at this
      rw [List.append_assoc, ew]
      exact this
theorem fmtGroups_read {E : Env} (hE : E.Laid) {G : Gram} (hG : G.Ok) {pairs : Bool} (hGp : GramP G pairs) {d : Nat} {prev : Prev}
    {pre : List Piece} {dep : Nat} {eqw al : Option Nat} {w : View} :
    (b : Body) → b.WF pairs d prev → Shows (fmtGroups E pre dep (decide (prev ≠ .start)) eqw al b) w →
      ∃ b', NormB E prev b b' ∧ ∀ T, TailOk G (b.last prev) T → BodyRd G d prev (w ++ T) b' (lbs T) (skip T)
  | .nil, hwf, h => by
    have h : w = [] := by rw [fmtGroups] at h; exact h
    subst h
    exact ⟨.nil, rfl, fun T hT => step_nil hG hT⟩
  | .dangling n cs rest, hwf, h => by
    rw [Body.WF] at hwf
    rw [fmtGroups, hE.skip, if_neg (by decide)] at h
    obtain ⟨w1, w2, rfl, h1, h2⟩ := Shows.app h
    obtain ⟨p, wd, rfl, h3, h4⟩ := h1.app
    obtain ⟨b', hb', hrd⟩ := fmtGroups_read hE hG hGp (prev := .dangling) rest hwf.2.2.2 h2
    refine ⟨.dangling (E.blank prev n) (E.rl cs) b', ⟨b', rfl, hb'⟩, fun T hT => ?_⟩
    have := step_dangling hE hG (Shows.before (first := some n) h3) hwf.2.1 hwf.2.2.1 (h4.danglingGroup hE.skip hwf.1) (hrd T hT)
    simpa using this
  | .item first n c rest, hwf, h => by
    rw [Body.WF] at hwf
    rw [fmtGroups] at h
    obtain ⟨w1, w2, rfl, h1, h2⟩ := Shows.app h
    obtain ⟨w1, wc, rfl, h1, h3⟩ := h1.app
    obtain ⟨p, wn, rfl, h4, h5⟩ := h1.app
    obtain ⟨n', hn'⟩ := fmt_read hE (d := d) n hwf.2.1 h5
    obtain ⟨b', hb', hrd⟩ := fmtGroups_read hE hG hGp (prev := .item) rest hwf.2.2.2 h2
    refine ⟨.item (first.map (E.blank prev)) n' (c.map E.rc) b', ⟨n', b', rfl, hn'.norm, hb'⟩, fun T hT => ?_⟩
    have := step_item hE hG h4.before hwf.2.2.1 (hn'.plain (hGp.of hwf.1)) (comma_read hE hG h3 (hrd T hT))
    simpa using this
theorem fmtItems_read {E : Env} (hE : E.Laid) {G : Gram} (hG : G.Ok) {pairs : Bool} (hGp : GramP G pairs) (hGl : G.line = false) {d : Nat}
    {prev : Prev} {pre : List Piece} {dep : Nat} {first : Bool} {al : Option Nat} {sp : Nat} {w : View} :
    (b : Body) → b.WF pairs d prev → b.hasDirectComment = false → Shows (fmtItems E pre dep first al sp b) w →
      ∃ b', NormF E first b b' ∧ ∀ e rest, (G.end_.contains e.kind = true ∧ isLead e.kind = false ∧ e.kind ≠ COMMA) →
        (first = true → hd (w ++ e :: rest) ≠ COMMENT ∧ ∃ k, LoopRd G d (w ++ e :: rest) 0 b' k (e :: rest)) ∧
        (first = false → ∃ k, AfterRd G d (w ++ e :: rest) (if b.hasItem then some ⟨[], none⟩ else none) b' k (e :: rest))
  | .nil, hwf, hc, h => by
    have h : w = [] := by rw [fmtItems] at h; exact h
    subst h
    refine ⟨.nil, rfl, fun e rest he => ?_⟩
    have hne : e.kind ≠ COMMENT := by intro h; rw [h] at he; exact absurd he.2.1 (by decide)
    have hnb : e.kind ≠ LINE_BREAK := by intro h; rw [h] at he; exact absurd he.2.1 (by decide)
    have hpk : View.peek (e :: rest) = e :: rest := peek_self (by exact hnb) (by exact hne)
    have hl : LoopRd G d (e :: rest) 0 .nil 0 (e :: rest) := by
      refine loop_end' hG hnb ?_ ?_
      · unfold dangLen
        rw [if_neg (by exact hne)]
      · rw [hpk]; exact he.1
    refine ⟨fun _ => ⟨hne, 0, hl⟩, fun _ => ⟨0, ?_⟩⟩
    refine afterRd_none hG (rest_stop hG hne ?_ (fun h => by rw [hGl] at h; cases h) (.inl ?_) hl)
    · rw [List.nil_append, hpk]; exact he.2.2
    · rw [List.nil_append, hpk]; exact end_notFirst hG he.1
  | .dangling n cs rest, hwf, hc, h => by cases hc
  | .item f n c rest, hwf, hc, h => by
    rw [Body.WF] at hwf
    rw [fmtItems] at h
    rw [Body.hasDirectComment] at hc
    simp only [Bool.or_eq_false_iff] at hc
    obtain ⟨w1, w2, rfl, h1, h2⟩ := Shows.app h
    obtain ⟨p, wn, rfl, h3, h4⟩ := h1.app
    obtain ⟨n', hn'⟩ := fmt_read hE (d := d) n hwf.2.1 h4
    obtain ⟨b', hb', hrd⟩ := fmtItems_read hE hG hGp hGl (first := false) rest hwf.2.2.2 hc.2 h2
    refine ⟨_, ⟨n', b', rfl, hn'.norm, hb'⟩, fun e rest he => ?_⟩
    have hi := hn'.plain (hGp.of hwf.1)
    obtain ⟨k, ha⟩ := (hrd e rest he).2 rfl
    have hlead := hn'.lead (by simpa using hc.1.1.1)
    have hcm : ∀ v, hd (wn ++ v) ≠ COMMENT := by
      intro v h
      obtain ⟨cs, u, x, w', e, -, -⟩ := hi.start
      cases hw : wn with
      | nil => rw [hw] at e; simp at e
      | cons y wn =>
        rw [hw] at h hlead
        have h : y.kind = COMMENT := h
        have hlead : isLead y.kind = false := hlead
        rw [h] at hlead
        cases hlead
    constructor
    · intro hf
      subst hf
      have h3 : p = [] := h3
      subst h3
      refine ⟨?_, k, ?_⟩
      · have := hcm (w2 ++ e :: rest)
        simpa using this
      · have := loop_item hG (br := 0) hi ha
        simpa [blankOf] using this
    · intro hf
      subst hf
      obtain ⟨x, w', rfl, hx, -, h5⟩ := Shows.token h3 (by decide)
      have h5 : w' = [] := h5.spaces
      subst h5
      refine ⟨k, ?_⟩
      have hr : RestRd G d (wn ++ (w2 ++ e :: rest)) _ k (e :: rest) :=
        rest_item hG (p := []) (fun x hx => by cases hx) hi (notSep (hi.hd_ne hG _).1 (hi.hd_ne hG _).2) (hcm _) (fun h => by rw [hGl] at h; cases h) ha
      have := afterRd_comma hG (p := []) (u := []) (wt := []) (c := ⟨[], none⟩) (fun x hx => by cases hx) rfl hx rfl
        (by show x.kind ≠ _; rw [hx]; decide) hr
      simpa [Body.hasItem] using this
end

end Tombi.Formatter
