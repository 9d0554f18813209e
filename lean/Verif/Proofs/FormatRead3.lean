import Verif.Proofs.FormatRead2
/-! What the formatter prints for a document is read back as the same document. -/
namespace Tombi.Formatter
open SyntaxKind
open Tombi.PM (NT)
open View (hd leaf isLead isSep dangLen isLiteral rootV)
open Tombi.Format (AstKey)

/-! ### key-value pairs of a table -/

/-- What becomes of the comma after a key-value pair of a table: the comment that moves to the pair, and the comma that stays. -/
def Env.tc (E : Env) (hasTrailing : Bool) : Option Comma → Option Text × Option Comma
  | none => (none, none)
  | some c =>
    match c.trailing with
    | some t => if c.leading.isEmpty && !hasTrailing then (some (E.renderComment true t), none) else (none, some (E.rc c))
    | none => if c.leading.isEmpty then (none, none) else (none, some (E.rc c))

/-- The groups of a table. -/
def NormP (E : Env) (prev : Prev) : Body → Body → Prop
  | .nil, b' => b' = .nil
  | .dangling n cs rest, b' => ∃ rest', b' = .dangling (E.blank prev n) (E.rl cs) rest' ∧ NormP E .dangling rest rest'
  | .item first n c rest, b' => ∃ n' rest', b' = .item (first.map (E.blank prev))
      (n'.addTrailing (E.tc n.trailing.isSome c).1) (E.tc n.trailing.isSome c).2 rest' ∧ NormN E n n' ∧ NormP E .item rest rest'

theorem tableComma_read {E : Env} (hE : E.Laid) {G : Gram} (hG : G.Ok) {n n' : Node} (hGn : GramOf G n) {pre : List Piece} {dep : Nat}
    {al : Option Nat} {c : Option Comma} {wn wc v v' : View} {d k : Nat} {b : Body}
    (h : Shows (E.tableComma pre dep al n.trailing.isSome c) wc) (hn : NodeRd E d n wn n') (hr : RestRd G d v b k v') :
    ∃ w1 w2, wn ++ wc = w1 ++ w2 ∧ ItemRd G d w1 (n'.addTrailing (E.tc n.trailing.isSome c).1) ∧
      AfterRd G d (w2 ++ v) (E.tc n.trailing.isSome c).2 b k v' := by
  have hkeep : ∀ c : Comma, (∃ y u x wt, wc = y :: (u ++ x :: wt) ∧ y.kind = LINE_BREAK ∧ LeadW (E.rl c.leading) u ∧ x.kind = COMMA ∧
      TrailW (E.rt c.trailing) wt) → ∃ w1 w2, wn ++ wc = w1 ++ w2 ∧ ItemRd G d w1 (n'.addTrailing none) ∧
      AfterRd G d (w2 ++ v) (some (E.rc c)) b k v' := by
    rintro c ⟨y, u, x, wt, rfl, hy, hu, hx, ht⟩
    refine ⟨wn, _, rfl, by rw [addTrailing_none]; exact hn.plain hGn, ?_⟩
    have e : y :: (u ++ x :: wt) ++ v = [y] ++ (u ++ x :: (wt ++ v)) := by simp
    rw [e]
    exact afterRd_comma hG (c := E.rc c) (fun z hz => by rw [List.mem_singleton.mp hz]; exact hy) hu hx ht
      (by show y.kind ≠ _; rw [hy]; decide) hr
  cases c with
  | none =>
    have h : wc = [] := h
    subst h
    exact ⟨wn, [], rfl, by rw [show (E.tc n.trailing.isSome none).1 = none from rfl, addTrailing_none]; exact hn.plain hGn, afterRd_none hG hr⟩
  | some c =>
    obtain ⟨cl, ct⟩ := c
    unfold Env.tableComma at h
    unfold Env.tc
    simp only at h ⊢
    cases ct with
    | none =>
      simp only at h ⊢
      by_cases hl : cl.isEmpty = true
      · rw [if_pos hl] at h ⊢
        have h : wc = [] := h
        subst h
        exact ⟨wn, [], rfl, by rw [addTrailing_none]; exact hn.plain hGn, afterRd_none hG hr⟩
      · rw [if_neg hl] at h ⊢
        refine hkeep ⟨cl, none⟩ ?_
        obtain ⟨y, w1, rfl, hy, h1⟩ := Shows.newline h
        obtain ⟨u, w2, rfl, h2, h3⟩ := h1.app
        obtain ⟨x, w3, rfl, hx, -, h4⟩ := h3.indent.token (by decide)
        have h4 : w3 = [] := h4
        subst h4
        exact ⟨y, u, x, [], rfl, hy, h2.leading hE.skip, hx, rfl⟩
    | some t =>
      simp only at h ⊢
      by_cases hl : (cl.isEmpty && !n.trailing.isSome) = true
      · rw [if_pos hl] at h ⊢
        rw [Bool.and_eq_true] at hl
        obtain ⟨w1, w2, rfl, h1, h2⟩ := Shows.app h
        have h1 := h1.alignSpace
        subst h1
        have ht := h2.trailingComment hE.skip
        refine ⟨wn ++ w2, [], by simp, hn.item G _ _ hGn ht (.inl ?_), afterRd_none hG hr⟩
        cases hnt : n.trailing with
        | none => rfl
        | some _ => rw [hnt] at hl; cases hl.2
      · rw [if_neg hl] at h ⊢
        refine hkeep ⟨cl, some t⟩ ?_
        obtain ⟨w1, w2, rfl, h1, h2⟩ := Shows.app h
        have ht := h2.trailingComment hE.skip
        obtain ⟨w1, w3, rfl, h0, h3⟩ := h1.app
        have h3 := h3.alignSpace
        subst h3
        obtain ⟨y, w4, rfl, hy, h4⟩ := Shows.newline h0
        obtain ⟨u, w5, rfl, h5, h6⟩ := h4.app
        obtain ⟨x, w6, rfl, hx, -, h7⟩ := h6.indent.token (by decide)
        have h7 : w6 = [] := h7
        subst h7
        refine ⟨y, u, x, w2, by simp, hy, ?_, hx, ht⟩
        by_cases hc : cl.isEmpty = true
        · rw [if_pos hc] at h5
          have h5 : u = [] := h5
          subst h5
          have : cl = [] := by simpa using hc
          rw [this]
          rfl
        · rw [if_neg hc] at h5
          exact h5.leading hE.skip

theorem fmtPairs_read {E : Env} (hE : E.Laid) {prev : Prev} {pre : List Piece} {dep : Nat} {eqw al : Option Nat} {w : View} (b : Body)
    (hwf : b.WF true 0 prev) (h : Shows (fmtPairs E pre dep (decide (prev ≠ .start)) eqw al b) w) :
    ∃ b', NormP E prev b b' ∧ ∀ T, TailOk gSec (b.last prev) T → BodyRd gSec 0 prev (w ++ T) b' (lbs T) (skip T) := by
  match b with
  | .nil =>
    have h : w = [] := by rw [fmtPairs] at h; exact h
    subst h
    exact ⟨.nil, rfl, fun T hT => step_nil gSec_ok hT⟩
  | .dangling n cs rest =>
    rw [Body.WF] at hwf
    rw [fmtPairs, hE.skip, if_neg (by decide)] at h
    obtain ⟨w1, w2, rfl, h1, h2⟩ := Shows.app h
    obtain ⟨p, wd, rfl, h3, h4⟩ := h1.app
    obtain ⟨b', hb', hrd⟩ := fmtPairs_read hE (prev := .dangling) rest hwf.2.2.2 h2
    refine ⟨.dangling (E.blank prev n) (E.rl cs) b', ⟨b', rfl, hb'⟩, fun T hT => ?_⟩
    have := step_dangling hE gSec_ok (Shows.before (first := some n) h3) hwf.2.1 hwf.2.2.1 (h4.danglingGroup hE.skip hwf.1) (hrd T hT)
    simpa using this
  | .item first n c rest =>
    rw [Body.WF] at hwf
    rw [fmtPairs] at h
    obtain ⟨w1, w2, rfl, h1, h2⟩ := Shows.app h
    obtain ⟨w1, wc, rfl, h1, h3⟩ := h1.app
    obtain ⟨p, wn, rfl, h4, h5⟩ := h1.app
    obtain ⟨n', hn'⟩ := fmt_read hE (d := 0) n hwf.2.1 h5
    obtain ⟨b', hb', hrd⟩ := fmtPairs_read hE (prev := .item) rest hwf.2.2.2 h2
    refine ⟨_, ⟨n', b', rfl, hn'.norm, hb'⟩, fun T hT => ?_⟩
    have hGn : GramOf gSec n := GramP.of (pairs := true) ⟨rfl, rfl⟩ hwf.1
    obtain ⟨wa, wb, e, hi, ha⟩ := tableComma_read hE gSec_ok hGn h3 hn' (hrd T hT)
    have := step_item hE gSec_ok h4.before hwf.2.2.1 hi ha
    have e' : p ++ wn ++ wc ++ w2 ++ T = p ++ (wa ++ (wb ++ (w2 ++ T))) := by
      have : wa ++ (wb ++ (w2 ++ T)) = (wn ++ wc) ++ (w2 ++ T) := by rw [e]; simp
      rw [this]
      simp
    rw [e']
    exact this

/-! ### tables -/

/-- A table. -/
def NormS (E : Env) (s s' : Section) : Prop :=
  s'.isArray = s.isArray ∧ s'.leading = E.rl s.leading ∧ s'.header = s.header.map E.rk ∧ s'.trailing = E.rt s.trailing ∧
    NormP E .start s.body s'.body

/-- Tables. -/
def NormSs (E : Env) : List Section → List Section → Prop
  | [], ss' => ss' = []
  | s :: ss, ss' => ∃ s' rest', ss' = s' :: rest' ∧ NormS E s s' ∧ NormSs E ss rest'

theorem NormSs.withBlank {E : Env} {ss ss' : List Section} (h : NormSs E ss ss') (n : Nat) : NormSs E ss (withBlank n ss') := by
  cases ss with
  | nil => have h : ss' = [] := h; subst h; rfl
  | cons s ss =>
    obtain ⟨s', rest', rfl, h1, h2⟩ := h
    exact ⟨_, _, rfl, h1, h2⟩

theorem headW_show {arr : Bool} {ks kd : SyntaxKind} {ts td : Text} {w : View} (hs : ks ≠ DOUBLE_BRACKET_START ∧ ks ≠ DOUBLE_BRACKET_END ∧ ks ≠ BARE_KEY)
    (hd' : ks = BRACKET_START ∧ kd = DOUBLE_BRACKET_START ∨ ks = BRACKET_END ∧ kd = DOUBLE_BRACKET_END)
    (h : Shows (if arr then [.token kd td] else [.token ks ts]) w) : HeadW arr ks w := by
  unfold HeadW
  cases arr with
  | false =>
    obtain ⟨x, w', rfl, hx, -, h1⟩ := Shows.token h hs
    have h1 : w' = [] := h1
    subst h1
    exact ⟨x, rfl, hx⟩
  | true =>
    obtain ⟨a, b, rfl, h1, h2⟩ := h
    have h2 : b = [] := h2
    subst h2
    simp only [Show1] at h1
    rcases hd' with ⟨rfl, rfl⟩ | ⟨rfl, rfl⟩
    · rw [if_pos rfl] at h1
      obtain ⟨x, y, rfl, h⟩ := h1
      exact ⟨x, y, rfl, h⟩
    · rw [if_neg (by decide), if_pos rfl] at h1
      obtain ⟨x, y, rfl, h⟩ := h1
      exact ⟨x, y, rfl, h⟩

/-- The view of a table. -/
def SecW (w : View) : Prop := ∃ cs u x w', w = u ++ x :: w' ∧ LeadW cs u ∧ x.kind = BRACKET_START

theorem SecW.hd_ne {w : View} (h : SecW w) (v : View) : hd (w ++ v) ≠ LINE_BREAK := by
  obtain ⟨cs, u, x, w', rfl, hu, hx⟩ := h
  rw [List.append_assoc]
  exact hu.hd_ne (by show x.kind ≠ _; rw [hx]; decide)

theorem SecW.tail {w : View} (h : SecW w) (v : View) {p : View} (hp : AllLb p) {last : Prev} (hi : last = .item → 1 ≤ p.length)
    (hdg : last = .dangling → 2 ≤ p.length) : TailOk gSec last (p ++ (w ++ v)) := by
  have hsk := hp.skip (h.hd_ne v)
  obtain ⟨cs, u, x, w', rfl, hu, hx⟩ := h
  have hxl : isLead (hd (x :: (w' ++ v))) = false := by show isLead x.kind = false; rw [hx]; decide
  have hpk : View.peek (p ++ ((u ++ x :: w') ++ v)) = x :: (w' ++ v) := by
    rw [hp.peek, List.append_assoc]
    exact hu.peek hxl
  refine ⟨?_, ?_, ?_, fun hl => ?_, fun hl => hp.dangEnd (hdg hl) _⟩
  · rw [hpk]; show TS_NEXT_SECTION.contains x.kind = true; rw [hx]; decide
  · rw [hpk]; show x.kind ≠ _; rw [hx]; decide
  · rw [hsk.1, List.append_assoc]
    exact hu.dangLen hxl (by show TS_DANGLING_COMMENT_GROUP_END.contains x.kind = false; rw [hx]; decide)
  · rw [hp.hd (hi hl)]
    exact ⟨by decide, fun _ => by decide⟩

theorem fmtSection_read {E : Env} (hE : E.Laid) {pre : List Piece} {preceding : List (List AstKey)} {s : Section} (hwf : s.WF) {w : View}
    (h : Shows (fmtSection E pre preceding s) w) :
    SecW w ∧ ∃ s', NormS E s s' ∧ ∀ T ss, TS_LINE_END.contains (hd T) = true → TailOk gSec (s.body.last .start) T → RootRd (skip T) ss →
      RootRd (w ++ T) (s' :: withBlank 0 ss) := by
  unfold fmtSection at h
  simp only at h
  generalize hdep : (if E.defs.indentSubTables = true then parentCount E.version preceding s.header else 0) = dep at h
  have hhead : ∀ w0, Shows (E.leading dep false s.leading ++ [E.indent dep]
      ++ (if s.isArray = true then [.token DOUBLE_BRACKET_START ['[', '[']] else [.token BRACKET_START ['[']])
      ++ E.keys s.header none
      ++ (if s.isArray = true then [.token DOUBLE_BRACKET_END [']', ']']] else [.token BRACKET_END [']']])
      ++ E.trailing [] none s.trailing) w0 → ∃ u ow kw cw wt, w0 = u ++ (ow ++ (kw ++ (cw ++ wt))) ∧ LeadW (E.rl s.leading) u ∧
        HeadW s.isArray BRACKET_START ow ∧ KeysW (s.header.map E.rk) kw ∧ HeadW s.isArray BRACKET_END cw ∧ TrailW (E.rt s.trailing) wt := by
    intro w0 h
    obtain ⟨w1, wt, rfl, h1, h2⟩ := h.app
    obtain ⟨w1, cw, rfl, h1, h3⟩ := h1.app
    obtain ⟨w1, kw, rfl, h1, h4⟩ := h1.app
    obtain ⟨w1, ow, rfl, h1, h5⟩ := h1.app
    obtain ⟨u, w6, rfl, h0, h6⟩ := h1.app
    have h6 : w6 = [] := h6.indent
    subst h6
    exact ⟨u, ow, kw, cw, wt, by simp, h0.leading hE.skip, headW_show (by decide) (.inl ⟨rfl, rfl⟩) h5, h4.keys hwf.header,
      headW_show (by decide) (.inr ⟨rfl, rfl⟩) h3, h2.trailing hE.skip⟩
  have hsec : ∀ u ow w', LeadW (E.rl s.leading) u → HeadW s.isArray BRACKET_START ow → SecW (u ++ (ow ++ w')) := by
    intro u ow w' hu ho
    unfold HeadW at ho
    split at ho
    · obtain ⟨x, y, rfl, hx, -⟩ := ho
      exact ⟨_, u, x, y :: w', rfl, hu, hx⟩
    · obtain ⟨x, rfl, hx⟩ := ho
      exact ⟨_, u, x, w', rfl, hu, hx⟩
  by_cases hb : s.body.isEmpty = true
  · rw [if_pos hb] at h
    have hnil : s.body = .nil := by
      cases hs : s.body with
      | nil => rfl
      | dangling => rw [hs] at hb; cases hb
      | item => rw [hs] at hb; cases hb
    obtain ⟨u, ow, kw, cw, wt, rfl, hu, ho, hk, hc, ht⟩ := hhead w h
    refine ⟨hsec _ _ _ hu ho, ⟨s.isArray, 0, E.rl s.leading, s.header.map E.rk, E.rt s.trailing, .nil⟩,
      ⟨rfl, rfl, rfl, rfl, by rw [hnil]; rfl⟩, fun T ss hl hT hss => ?_⟩
    have := root_section hu ho hk hc ht hl (tail_loop gSec_ok (d := 0) (br := 0) hT) hss
    simpa using this
  · rw [if_neg hb] at h
    obtain ⟨w1, wb, rfl, h1, h2⟩ := h.app
    obtain ⟨w1, w2, rfl, h0, h3⟩ := h1.app
    obtain ⟨y, w3, rfl, hy, h4⟩ := h3.newline
    have h4 : w3 = [] := h4
    subst h4
    obtain ⟨u, ow, kw, cw, wt, rfl, hu, ho, hk, hc, ht⟩ := hhead w1 h0
    obtain ⟨b', hb', hrd⟩ := fmtPairs_read hE (prev := .start) s.body hwf.body h2
    refine ⟨by have := hsec u ow (kw ++ (cw ++ wt) ++ [y] ++ wb) hu ho; simpa using this,
      ⟨s.isArray, 0, E.rl s.leading, s.header.map E.rk, E.rt s.trailing, b'⟩,
      ⟨rfl, rfl, rfl, rfl, hb'⟩, fun T ss hl hT hss => ?_⟩
    obtain ⟨k, hlr, -⟩ := hrd T hT 1 (Nat.le_refl _)
    have := root_section (v := y :: (wb ++ T)) hu ho hk hc ht (by show TS_LINE_END.contains y.kind = true; rw [hy]; decide)
      (loop_lb' gSec_ok hy (br := 0) hlr) hss
    simpa using this

theorem startsDangling_of_last {b : Body} (h : b.last .start = .dangling) : 0 < b.itemCount ∨ b.startsDangling = true := by
  cases b with
  | nil => cases h
  | dangling => exact .inr rfl
  | item => exact .inl (by rw [Body.itemCount]; omega)

theorem lbEof_tail {y z : VTok} (hy : y.kind = LINE_BREAK) (hz : z.kind = EOF) (last : Prev) : TailOk gSec last [y, z] :=
  TailOk.arr hy (by rw [hz]; decide) (by rw [hz]; decide) (by rw [hz]; decide) (by rw [hz]; decide)

theorem fmtSections_read {E : Env} (hE : E.Laid) {y z : VTok} (hy : y.kind = LINE_BREAK) (hz : z.kind = EOF) (ss : List Section) :
    ∀ {pre : List Piece} {preceding : List (List AstKey)} {prev : Section} {w : View}, (∀ s ∈ ss, s.WF) →
    Shows (fmtSections E pre preceding prev ss) w →
    TS_LINE_END.contains (hd (w ++ [y, z])) = true ∧ TailOk gSec (prev.body.last .start) (w ++ [y, z]) ∧
      ∃ ss', NormSs E ss ss' ∧ RootRd (skip (w ++ [y, z])) ss' := by
  induction ss with
  | nil =>
    intro pre preceding prev w hwf h
    have h : w = [] := h
    subst h
    refine ⟨by show TS_LINE_END.contains y.kind = true; rw [hy]; decide, lbEof_tail hy hz _, [], rfl, root_end ?_⟩
    rw [List.nil_append, skip, if_pos hy, skip, if_neg (by rw [hz]; decide)]
    exact hz
  | cons s ss ih =>
    intro pre preceding prev w hwf h
    rw [fmtSections] at h
    obtain ⟨w1, w2, rfl, h1, h2⟩ := Shows.app h
    obtain ⟨p, ws, rfl, h3, h4⟩ := h1.app
    obtain ⟨hl, ht, ss', hn', hrd'⟩ := ih (fun t ht => hwf t (by simp [ht])) h2
    obtain ⟨hsw, s', hns, hrd⟩ := fmtSection_read hE (hwf s (by simp)) h4
    have hr := hrd _ ss' hl ht hrd'
    obtain ⟨hp, hlen, hlen2⟩ : AllLb p ∧ 1 ≤ p.length ∧ (prev.body.last .start = .dangling → 2 ≤ p.length) := by
      by_cases hb : blankBetween prev s = true
      · rw [if_pos hb] at h3
        have := Shows.newlines (n := E.defs.tableBlankLines + 1) h3
        have h1 := hE.tables
        exact ⟨this.1, by omega, fun _ => by omega⟩
      · rw [if_neg hb] at h3
        have := Shows.newlines (n := 1) h3
        refine ⟨this.1, by omega, fun hlast => absurd ?_ hb⟩
        unfold blankBetween
        simp only
        rcases startsDangling_of_last hlast with h | h
        · split <;> simp [h]
        · split <;> simp [h]
    have e : p ++ ws ++ w2 ++ [y, z] = p ++ (ws ++ (w2 ++ [y, z])) := by simp
    rw [e]
    refine ⟨by rw [hp.hd hlen]; decide, hsw.tail _ hp (fun _ => hlen) hlen2, s' :: withBlank 0 ss', ⟨s', _, rfl, hns, hn'.withBlank 0⟩, ?_⟩
    rw [(hp.skip (hsw.hd_ne _)).1]
    exact hr

/-! ### documents -/

/-- A document. -/
def NormD (E : Env) (doc doc' : Doc) : Prop :=
  NormP E .start doc.body doc'.body ∧ NormSs E doc.sections doc'.sections ∧
    (doc.body.isEmpty = false → doc.body.noItem = true → ∀ s ∈ doc.sections.head?, ∀ s' ∈ doc'.sections.head?,
      s'.blank = min s.blank E.defs.groupBlankLinesLimit)

theorem NormP.isNil {E : Env} {prev : Prev} {b b' : Body} (h : NormP E prev b b') : b' = .nil ↔ b = .nil := by
  cases b with
  | nil => have h : b' = .nil := h; subst h; exact ⟨fun _ => rfl, fun _ => rfl⟩
  | dangling n cs rest => obtain ⟨rest', rfl, -⟩ := h; exact ⟨nofun, nofun⟩
  | item f n c rest => obtain ⟨n', rest', rfl, -⟩ := h; exact ⟨nofun, nofun⟩

theorem noItem_last {b : Body} (h : b.noItem = true) (prev : Prev) (hp : prev = .item → False) : b.last prev ≠ .item := by
  match b with
  | .nil => exact hp
  | .dangling n cs rest => exact noItem_last (b := rest) h .dangling nofun
  | .item .. => cases h

theorem isEmpty_iff (b : Body) : b.isEmpty = true ↔ b = .nil := by
  cases b
  · exact ⟨fun _ => rfl, fun _ => rfl⟩
  · exact ⟨nofun, nofun⟩
  · exact ⟨nofun, nofun⟩

theorem fmtDoc_read {E : Env} (hE : E.Laid) {doc : Doc} (hwf : doc.WF) {w : View} (h : Shows (fmtDoc E doc) w) {y z : VTok}
    (hy : y.kind = LINE_BREAK) (hz : z.kind = EOF) :
    ∃ doc', NormD E doc doc' ∧ ∃ cs v' m0, (∀ m, m0 ≤ m → rootV m (w ++ [y, z]) = some ([.node ROOT cs], v')) ∧
      docOf (.node ROOT cs) = doc' := by
  obtain ⟨body, sections⟩ := doc
  unfold fmtDoc at h
  simp only at h
  cases sections with
  | nil =>
    simp only at h
    obtain ⟨b', hb', hrd⟩ := fmtPairs_read hE (prev := .start) body hwf.body h
    obtain ⟨k, hl, -⟩ := hrd _ (lbEof_tail hy hz _) 0 (by omega)
    have hsk : skip [y, z] = [z] := by rw [skip, if_pos hy, skip, if_neg (by rw [hz]; decide)]
    rw [hsk] at hl
    obtain ⟨cs, v', m0, h1, h2⟩ := root_doc hl (root_end hz)
    exact ⟨_, ⟨by rw [h2]; exact hb', by rw [h2]; rfl, fun _ _ s hs => by cases hs⟩, cs, v', m0, h1, rfl⟩
  | cons s ss =>
    simp only at h
    obtain ⟨w1, w2, rfl, h1, h2⟩ := Shows.app h
    obtain ⟨w1, ws, rfl, h1, h3⟩ := h1.app
    obtain ⟨wb, p, rfl, h1, h4⟩ := h1.app
    obtain ⟨b', hb', hrd⟩ := fmtPairs_read hE (prev := .start) body hwf.body h1
    obtain ⟨hl, ht, ss', hn', hrd'⟩ := fmtSections_read hE hy hz ss (fun t ht => hwf.sections t (by simp [ht])) h2
    obtain ⟨hsw, s', hns, hrs⟩ := fmtSection_read hE (hwf.sections s (by simp)) h3
    have hr := hrs _ ss' hl ht hrd'
    have hfirst := hwf.first s (by simp)
    obtain ⟨hp, hlen, hlen2, hlen3⟩ : AllLb p ∧ (body.last .start = .item → 1 ≤ p.length) ∧ (body.last .start = .dangling → 2 ≤ p.length) ∧
        (body.isEmpty = false → body.noItem = true → p.length = min s.blank E.defs.groupBlankLinesLimit + 1) := by
      unfold Env.rootSeparator at h4
      by_cases hb : body.isEmpty = true
      · rw [if_pos hb] at h4
        have h4 : p = [] := h4
        subst h4
        have := (isEmpty_iff body).mp hb
        subst this
        exact ⟨(fun x hx => by cases hx), nofun, nofun, nofun⟩
      · rw [if_neg hb] at h4
        have := Shows.newlines h4
        refine ⟨this.1, fun _ => by omega, fun hlast => ?_, fun _ hno => by rw [this.2, if_pos hno]⟩
        rw [this.2]
        have h1 := hE.tables
        have h2 := hE.limit
        have h3 := hfirst.1 hlast
        split <;> omega
    have e : wb ++ p ++ ws ++ w2 ++ [y, z] = wb ++ (p ++ (ws ++ (w2 ++ [y, z]))) := by simp
    rw [e]
    have hsk := hp.skip (hsw.hd_ne (w2 ++ [y, z]))
    obtain ⟨k, hloop, hk⟩ := hrd _ (hsw.tail (w2 ++ [y, z]) hp hlen hlen2) 0 (by omega)
    rw [hsk.1] at hloop
    rw [hsk.2] at hk
    obtain ⟨cs, v', m0, h5, h6⟩ := root_doc hloop hr
    refine ⟨_, ⟨?_, ?_, ?_⟩, cs, v', m0, h5, rfl⟩
    · rw [h6]; exact hb'
    · rw [h6]; exact ⟨_, _, rfl, hns, hn'.withBlank 0⟩
    · intro hne hno t ht t' ht'
      rw [h6] at ht'
      simp only [List.head?_cons, Option.mem_def, Option.some.injEq, withBlank] at ht ht'
      subst ht
      subst ht'
      have hbn : b' ≠ .nil := by
        intro h
        rw [hb'.isNil] at h
        have hne : body.isEmpty = false := hne
        rw [h] at hne
        cases hne
      show blankOf k = _
      rw [hk hbn, hlen3 hne hno]
      unfold blankOf
      have := hfirst.2
      omega

/-- The empty document. -/
theorem empty_read {z : VTok} (hz : z.kind = EOF) :
    ∃ cs v' m0, (∀ m, m0 ≤ m → rootV m [z] = some ([.node ROOT cs], v')) ∧ docOf (.node ROOT cs) = ⟨.nil, []⟩ := by
  have hl : LoopRd gSec 0 [z] 0 .nil 0 [z] := by
    refine loop_end' gSec_ok (by show z.kind ≠ _; rw [hz]; decide) ?_ ?_
    · unfold dangLen
      rw [if_neg (by show ¬ z.kind = _; rw [hz]; decide)]
    · rw [peek_self (by show z.kind ≠ _; rw [hz]; decide) (by show z.kind ≠ _; rw [hz]; decide)]
      show TS_NEXT_SECTION.contains z.kind = true
      rw [hz]
      decide
  exact root_doc hl (root_end hz)

end Tombi.Formatter
