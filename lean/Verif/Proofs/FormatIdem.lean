import Verif.Proofs.NormWords
/-! What is printed for a document that was read back from print is the same print. -/
namespace Tombi.Formatter
open SyntaxKind
open Tombi.Format (AstKey)

/-! ### what decides about the layout -/

theorem rl_isEmpty (E : Env) (cs : List Text) : (E.rl cs).isEmpty = cs.isEmpty := by cases cs <;> rfl

theorem rc_hasComment (E : Env) (c : Option Comma) : commaHasComment (c.map E.rc) = commaHasComment c := by
  cases c with
  | none => rfl
  | some c => simp only [Option.map_some, commaHasComment, Env.rc, rl_isEmpty, rt_isSome]

theorem norm_leading {E : Env} {n n' : Node} (h : NormN E n n') : n'.leading = E.rl n.leading := by
  cases n with
  | lit => rw [NormN] at h; subst h; rfl
  | array => rw [NormN] at h; obtain ⟨_, _, rfl, -⟩ := h; rfl
  | table => rw [NormN] at h; obtain ⟨_, _, rfl, -⟩ := h; rfl
  | pair => rw [NormN] at h; obtain ⟨_, _, rfl, -⟩ := h; rfl

/-- Multi-line strings are left alone. -/
theorem lit_multiline (E : Env) (k : SyntaxKind) (t : Text) :
    ((E.litKind k t == MULTI_LINE_BASIC_STRING || E.litKind k t == MULTI_LINE_LITERAL_STRING) && (E.literalText k t).contains '\n') =
      ((k == MULTI_LINE_BASIC_STRING || k == MULTI_LINE_LITERAL_STRING) && t.contains '\n') := by
  by_cases h1 : k = MULTI_LINE_BASIC_STRING
  · subst h1; rfl
  · by_cases h2 : k = MULTI_LINE_LITERAL_STRING
    · subst h2; rfl
    · have : E.litKind k t ≠ MULTI_LINE_BASIC_STRING ∧ E.litKind k t ≠ MULTI_LINE_LITERAL_STRING := by
        unfold Env.litKind writtenKind
        split
        · decide
        · decide
        · exact ⟨h1, h2⟩
      rw [beq_eq_false_iff_ne.mpr h1, beq_eq_false_iff_ne.mpr h2, beq_eq_false_iff_ne.mpr this.1, beq_eq_false_iff_ne.mpr this.2]
      rfl

theorem normF_hasItem {E : Env} : {first : Bool} → (b : Body) → {b' : Body} → NormF E first b b' → b'.hasItem = b.hasItem
  | _, .nil, b', h => by rw [NormF] at h; subst h; rfl
  | _, .dangling n cs rest, b', h => by
    rw [NormF] at h
    exact normF_hasItem rest h
  | _, .item f n c rest, b', h => by
    rw [NormF] at h
    obtain ⟨n', rest', rfl, -⟩ := h
    rfl

theorem normB_hasItem {E : Env} : {prev : Prev} → (b : Body) → {b' : Body} → NormB E prev b b' → b'.hasItem = b.hasItem
  | _, .nil, b', h => by rw [NormB] at h; subst h; rfl
  | _, .dangling n cs rest, b', h => by
    rw [NormB] at h
    obtain ⟨rest', rfl, hr⟩ := h
    rw [Body.hasItem, Body.hasItem]
    exact normB_hasItem rest hr
  | _, .item f n c rest, b', h => by
    rw [NormB] at h
    obtain ⟨n', rest', rfl, -⟩ := h
    rfl

theorem normF_lastComma {E : Env} : {first : Bool} → (b : Body) → {b' : Body} → NormF E first b b' → ∀ x,
    b'.lastComma x = if b.hasItem then false else x
  | _, .nil, b', h, x => by rw [NormF] at h; subst h; rfl
  | _, .dangling n cs rest, b', h, x => by
    rw [NormF] at h
    exact normF_lastComma rest h x
  | _, .item f n c rest, b', h, x => by
    rw [NormF] at h
    obtain ⟨n', rest', rfl, -, hr⟩ := h
    rw [Body.lastComma, normF_lastComma rest hr]
    cases rest.hasItem <;> rfl

theorem normB_lastComma {E : Env} : {prev : Prev} → (b : Body) → {b' : Body} → NormB E prev b b' → ∀ x, b'.lastComma x = b.lastComma x
  | _, .nil, b', h, x => by rw [NormB] at h; subst h; rfl
  | _, .dangling n cs rest, b', h, x => by
    rw [NormB] at h
    obtain ⟨rest', rfl, hr⟩ := h
    rw [Body.lastComma, Body.lastComma, normB_lastComma rest hr]
  | _, .item f n c rest, b', h, x => by
    rw [NormB] at h
    obtain ⟨n', rest', rfl, -, hr⟩ := h
    rw [Body.lastComma, Body.lastComma, normB_lastComma rest hr, Option.isSome_map]

theorem normB_direct {E : Env} : {prev : Prev} → (b : Body) → {b' : Body} → NormB E prev b b' → b'.hasDirectComment = b.hasDirectComment
  | _, .nil, b', h => by rw [NormB] at h; subst h; rfl
  | _, .dangling n cs rest, b', h => by
    rw [NormB] at h
    obtain ⟨rest', rfl, hr⟩ := h
    rfl
  | _, .item f n c rest, b', h => by
    rw [NormB] at h
    obtain ⟨n', rest', rfl, hn, hr⟩ := h
    rw [Body.hasDirectComment, Body.hasDirectComment, normB_direct rest hr, norm_leading hn, norm_trailing hn, rl_isEmpty, rt_isSome,
      rc_hasComment]

theorem flatComma (b : Bool) : commaHasComment (if b then some ⟨[], none⟩ else none) = false := by cases b <;> rfl

theorem normF_direct {E : Env} : {first : Bool} → (b : Body) → {b' : Body} → NormF E first b b' → b.hasDirectComment = false →
    b'.hasDirectComment = false
  | _, .nil, b', h, _ => by rw [NormF] at h; subst h; rfl
  | _, .dangling n cs rest, b', h, hd => by cases hd
  | _, .item f n c rest, b', h, hd => by
    rw [NormF] at h
    obtain ⟨n', rest', rfl, hn, hr⟩ := h
    simp only [Body.hasDirectComment, Bool.or_eq_false_iff] at hd
    rw [Body.hasDirectComment, normF_direct rest hr hd.2, norm_leading hn, norm_trailing hn, rl_isEmpty, rt_isSome, flatComma,
      hd.1.1.1, hd.1.1.2]
    rfl

mutual
theorem normN_hasComment {E : Env} : (n : Node) → {n' : Node} → NormN E n n' → n'.hasComment = n.hasComment
  | .lit l k t tr, n', h => by
    rw [NormN] at h
    subst h
    rw [Node.hasComment, Node.hasComment, rl_isEmpty, rt_isSome]
  | .array l s b tr, n', h => by
    rw [NormN] at h
    obtain ⟨b', multi, rfl, hm, -, h1, h2⟩ := h
    have hb : b'.hasComment = b.hasComment := by
      cases multi with
      | true => exact normB_hasComment b (h1 rfl)
      | false => exact normF_hasComment b (noOwn_array (hm rfl)) (h2 rfl)
    rw [Node.hasComment, Node.hasComment, hb, rl_isEmpty, rt_isSome, rt_isSome]
  | .table l s b tr, n', h => by
    rw [NormN] at h
    obtain ⟨b', multi, rfl, hm, -, h1, h2⟩ := h
    have hb : b'.hasComment = b.hasComment := by
      cases multi with
      | true => exact normB_hasComment b (h1 rfl)
      | false => exact normF_hasComment b (noOwn_table (hm rfl)) (h2 rfl)
    rw [Node.hasComment, Node.hasComment, hb, rl_isEmpty, rt_isSome, rt_isSome]
  | .pair l ks s v, n', h => by
    rw [NormN] at h
    obtain ⟨_, v', rfl, hv⟩ := h
    rw [Node.hasComment, Node.hasComment, rl_isEmpty, normN_hasComment v hv]
theorem normB_hasComment {E : Env} : {prev : Prev} → (b : Body) → {b' : Body} → NormB E prev b b' → b'.hasComment = b.hasComment
  | _, .nil, b', h => by rw [NormB] at h; subst h; rfl
  | _, .dangling n cs rest, b', h => by
    rw [NormB] at h
    obtain ⟨rest', rfl, hr⟩ := h
    rw [Body.hasComment, Body.hasComment, rl_isEmpty, normB_hasComment rest hr]
  | _, .item f n c rest, b', h => by
    rw [NormB] at h
    obtain ⟨n', rest', rfl, hn, hr⟩ := h
    rw [Body.hasComment, Body.hasComment, normN_hasComment n hn, rc_hasComment, normB_hasComment rest hr]
theorem normF_hasComment {E : Env} : {first : Bool} → (b : Body) → {b' : Body} → b.noOwn → NormF E first b b' →
    b'.hasComment = b.hasComment
  | _, .nil, b', _, h => by rw [NormF] at h; subst h; rfl
  | _, .dangling n cs rest, b', ho, h => by
    rw [NormF] at h
    rw [Body.hasComment, ho.1]
    exact normF_hasComment rest ho.2 h
  | _, .item f n c rest, b', ho, h => by
    rw [NormF] at h
    obtain ⟨n', rest', rfl, hn, hr⟩ := h
    rw [Body.hasComment, Body.hasComment, normN_hasComment n hn, normF_hasComment rest ho.2 hr, ho.1, flatComma]
end

theorem arrayMultiline_norm {E : Env} {s : Option Text} {multi : Bool} (b : Body) {b' : Body}
    (hm : multi = false → E.arrayMultiline s b = false) (h1 : multi = true → NormB E .start b b') (h2 : multi = false → NormF E true b b')
    (eB : NormB E .start b b' → b'.multiline E.version = b.multiline E.version)
    (eF : NormF E true b b' → b.multiline E.version = false → b'.multiline E.version = false) :
    E.arrayMultiline (E.rt s) b' = E.arrayMultiline s b := by
  cases multi with
  | true =>
    have h := h1 rfl
    simp only [Env.arrayMultiline]
    rw [normB_lastComma b h, eB h, normB_hasComment b h, rt_isSome]
  | false =>
    have h := h2 rfl
    have ha := hm rfl
    rw [ha]
    have ho := noOwn_array ha
    simp only [Env.arrayMultiline, Bool.or_eq_false_iff] at ha ⊢
    rw [normF_hasComment b ho h, rt_isSome, normF_lastComma b h]
    exact ⟨⟨by split <;> rfl, eF h ha.1.2⟩, ha.2⟩
theorem tableMultiline_norm {E : Env} {s : Option Text} {multi : Bool} (b : Body) {b' : Body}
    (hm : multi = false → E.tableMultiline s b = false) (h1 : multi = true → NormB E .start b b') (h2 : multi = false → NormF E true b b')
    (eB : NormB E .start b b' → b'.multiline E.version = b.multiline E.version)
    (eF : NormF E true b b' → b.multiline E.version = false → b'.multiline E.version = false) :
    E.tableMultiline (E.rt s) b' = E.tableMultiline s b := by
  by_cases hv : E.version = .V1_0_0
  · simp only [Env.tableMultiline, if_pos hv] at hm ⊢
    cases multi with
    | true => rw [normB_direct b (h1 rfl), rt_isSome]
    | false =>
      have ha := hm rfl
      rw [ha]
      rw [Bool.or_eq_false_iff] at ha
      rw [rt_isSome, ha.1, normF_direct b (h2 rfl) ha.2]
      rfl
  · have e : ∀ s b, E.tableMultiline s b = E.arrayMultiline s b := by
      intro s b
      unfold Env.tableMultiline Env.arrayMultiline
      rw [if_neg hv]
    rw [e, e]
    rw [e] at hm
    exact arrayMultiline_norm b hm h1 h2 eB eF

mutual
theorem normN_multiline {E : Env} : (n : Node) → {n' : Node} → NormN E n n' → n'.multiline E.version = n.multiline E.version
  | .lit l k t tr, n', h => by
    rw [NormN] at h
    subst h
    rw [Node.multiline, Node.multiline]
    exact lit_multiline E k t
  | .array l s b tr, n', h => by
    rw [NormN] at h
    obtain ⟨b', multi, rfl, hm, -, h1, h2⟩ := h
    exact arrayMultiline_norm b hm h1 h2 (normB_multiline b) (normF_multiline b)
  | .table l s b tr, n', h => by
    rw [NormN] at h
    obtain ⟨b', multi, rfl, hm, -, h1, h2⟩ := h
    exact tableMultiline_norm b hm h1 h2 (normB_multiline b) (normF_multiline b)
  | .pair l ks s v, n', h => by
    rw [NormN] at h
    obtain ⟨_, v', rfl, hv⟩ := h
    rw [Node.multiline, Node.multiline, normN_multiline v hv]
theorem normB_multiline {E : Env} : {prev : Prev} → (b : Body) → {b' : Body} → NormB E prev b b' →
    b'.multiline E.version = b.multiline E.version
  | _, .nil, b', h => by rw [NormB] at h; subst h; rfl
  | _, .dangling n cs rest, b', h => by
    rw [NormB] at h
    obtain ⟨rest', rfl, hr⟩ := h
    rfl
  | _, .item f n c rest, b', h => by
    rw [NormB] at h
    obtain ⟨n', rest', rfl, hn, hr⟩ := h
    rw [Body.multiline, Body.multiline, normN_multiline n hn, normB_multiline rest hr]
theorem normF_multiline {E : Env} : {first : Bool} → (b : Body) → {b' : Body} → NormF E first b b' →
    b.multiline E.version = false → b'.multiline E.version = false
  | _, .nil, b', h, _ => by rw [NormF] at h; subst h; rfl
  | _, .dangling n cs rest, b', h, hd => by cases hd
  | _, .item f n c rest, b', h, hd => by
    rw [NormF] at h
    obtain ⟨n', rest', rfl, hn, hr⟩ := h
    rw [Body.multiline, Bool.or_eq_false_iff] at hd
    rw [Body.multiline, normN_multiline n hn, normF_multiline rest hr hd.2, hd.1]
    rfl
end

/-! ### words that stay -/

/-- With or without comments. -/
def Env.sk (E : Env) (x : Bool) : Env := { E with skipComment := x }

/-- A word that is written the same way the second time. -/
def Calm (E : Env) : Word → Prop
  | .key k => E.key (E.rk k) = E.key k ∧ (∀ v, rawKey? v (E.rk k) = rawKey? v k) ∧
      ((rawKey? .V1_1_0 k).isSome = true → ∀ v, rawKey v (E.rk k) = rawKey v k)
  | .literal k t => E.literal (E.litKind k t) (E.literalText k t) = E.literal k t
  | .mark _ => True
  | .comment f t => E.renderComment f (E.renderComment f t) = E.renderComment f t

def CalmL (E : Env) (ws : List Word) : Prop := ∀ w ∈ ws, Calm E w

theorem CalmL.l {E : Env} {a b : List Word} (h : CalmL E (a ++ b)) : CalmL E a := fun w hw => h w (by simp [hw])
theorem CalmL.r {E : Env} {a b : List Word} (h : CalmL E (a ++ b)) : CalmL E b := fun w hw => h w (by simp [hw])
theorem CalmL.tl {E : Env} {a : Word} {b : List Word} (h : CalmL E (a :: b)) : CalmL E b := fun w hw => h w (by simp [hw])
theorem CalmL.hd {E : Env} {a : Word} {b : List Word} (h : CalmL E (a :: b)) : Calm E a := h a (by simp)

theorem calm_rest {E : Env} {cs : List Text} (h : CalmL E (cs.map (.comment false))) :
    ∀ c ∈ cs, E.renderComment false (E.renderComment false c) = E.renderComment false c := by
  intro c hc
  exact h (.comment false c) (List.mem_map_of_mem hc)

theorem leadingRest_norm (E : Env) (x : Bool) (d : Nat) (cs : List Text) (h : CalmL E (cs.map (.comment false))) :
    (E.sk x).leadingRest d (cs.map (E.renderComment false)) = (E.sk x).leadingRest d cs := by
  induction cs with
  | nil => rfl
  | cons c cs ih =>
    have hc : (E.sk x).renderComment false (E.renderComment false c) = (E.sk x).renderComment false c := h.hd
    simp only [List.map_cons, Env.leadingRest]
    rw [ih h.tl, hc]

theorem leading_norm (E : Env) (x : Bool) (d : Nat) (skip : Bool) (cs : List Text) (h : CalmL E (commentWords cs)) :
    (E.sk x).leading d skip (E.rl cs) = (E.sk x).leading d skip cs := by
  cases cs with
  | nil => rfl
  | cons c cs =>
    have hc : (E.sk x).renderComment true (E.renderComment true c) = (E.sk x).renderComment true c := h.hd
    simp only [Env.rl, Env.leading]
    rw [hc, leadingRest_norm E x d cs h.tl]

theorem skipAfter_norm (E : Env) (x : Bool) (skip : Bool) (cs : List Text) :
    (E.sk x).skipAfter skip (E.rl cs) = (E.sk x).skipAfter skip cs := by
  unfold Env.skipAfter
  rw [rl_isEmpty]

theorem trailing_norm (E : Env) (x : Bool) (pre : List Piece) (al : Option Nat) (c : Option Text) (h : CalmL E (trailingWords c)) :
    (E.sk x).trailing pre al (E.rt c) = (E.sk x).trailing pre al c := by
  cases c with
  | none => rfl
  | some c =>
    have hc : (E.sk x).renderComment true (E.renderComment true c) = (E.sk x).renderComment true c := h.hd
    simp only [Env.rt, Option.map_some, Env.trailing, Env.trailingComment]
    rw [hc]

theorem danglingRest_norm (E : Env) (x : Bool) (d : Nat) (cs : List Text) (h : CalmL E (cs.map (.comment false))) :
    (E.sk x).danglingRest d (cs.map (E.renderComment false)) = (E.sk x).danglingRest d cs := by
  induction cs with
  | nil => rfl
  | cons c cs ih =>
    have hc : (E.sk x).renderComment false (E.renderComment false c) = (E.sk x).renderComment false c := h.hd
    simp only [List.map_cons, Env.danglingRest]
    rw [ih h.tl, hc]

theorem danglingGroup_norm (E : Env) (x : Bool) (d : Nat) (cs : List Text) (h : CalmL E (commentWords cs)) :
    (E.sk x).danglingGroup d (E.rl cs) = (E.sk x).danglingGroup d cs := by
  cases cs with
  | nil => rfl
  | cons c cs =>
    have hc : (E.sk x).renderComment true (E.renderComment true c) = (E.sk x).renderComment true c := h.hd
    simp only [Env.rl, Env.danglingGroup]
    rw [hc, danglingRest_norm E x d cs h.tl]

theorem keyList_norm (E : Env) (x : Bool) : (ks : List AstKey) → CalmL E (keyWords ks) → (E.sk x).keyList (ks.map E.rk) = (E.sk x).keyList ks
  | [], _ => rfl
  | [k], h => by
    have hk : E.key (E.rk k) = E.key k := h.hd.1
    show [E.key (E.rk k)] = [E.key k]
    rw [hk]
  | a :: b :: ks, h => by
    have hk : E.key (E.rk a) = E.key a := h.hd.1
    show E.key (E.rk a) :: .token DOT ['.'] :: (E.sk x).keyList ((b :: ks).map E.rk) = E.key a :: .token DOT ['.'] :: (E.sk x).keyList (b :: ks)
    rw [hk, keyList_norm E x (b :: ks) h.tl.tl]

theorem keys_norm (E : Env) (x : Bool) (w : Option Nat) (ks : List AstKey) (h : CalmL E (keyWords ks)) :
    (E.sk x).keys (ks.map E.rk) w = (E.sk x).keys ks w := by
  unfold Env.keys
  rw [keyList_norm E x ks h]

theorem separator_norm (E : Env) (x : Bool) {prev : Prev} (hp : prev ≠ .start) (n : Nat) :
    (E.sk x).separator (E.blank prev n) = (E.sk x).separator n := by
  unfold Env.separator Env.blank
  simp only [if_neg hp]
  have hd : (E.sk x).defs = E.defs := rfl
  rw [hd, Nat.min_assoc, Nat.min_self]

theorem before_norm (E : Env) (x : Bool) (prev : Prev) (written : Bool) (hp : written = true → prev ≠ .start) (first : Option Nat) :
    (E.sk x).before written (first.map (E.blank prev)) = (E.sk x).before written first := by
  cases first with
  | none => rfl
  | some n =>
    simp only [Option.map_some, Env.before]
    cases written with
    | false => rfl
    | true => simp only [if_true]; exact separator_norm E x (hp rfl) n

theorem comma_norm (E : Env) (x : Bool) (pre : List Piece) (d : Nat) (al : Option Nat) (tr : Bool) (c : Option Comma)
    (h : CalmL E (commaWords c)) : (E.sk x).comma pre d al tr (c.map E.rc) = (E.sk x).comma pre d al tr c := by
  cases c with
  | none => rfl
  | some c =>
    have hl := leading_norm E x d false c.leading (CalmL.l h)
    simp only [Option.map_some, Env.comma, Env.rc, rl_isEmpty]
    rw [hl, trailing_norm E x _ al c.trailing (CalmL.r h)]

/-- Settings under which the layout does not depend on widths. -/
structure Env.Still (E : Env) : Prop where
  single : E.singleLine = false
  width : E.defs.lineWidth = none
  equal : E.defs.keyValueEqualAlignment = false

theorem equalWidth_none {E : Env} (hE : E.Still) (x : Bool) (b : Body) : (E.sk x).equalWidth b = none := by
  unfold Env.equalWidth
  exact if_neg (by rw [show (E.sk x).defs.keyValueEqualAlignment = E.defs.keyValueEqualAlignment from rfl, hE.equal]; decide)

theorem array_decision {E : Env} (hE : E.Still) (x : Bool) {pre : List Piece} {d : Nat} {skip : Bool} {len cs tail : Nat} (s : Option Text)
    (b : Body) : (!(E.sk x).singleLine && ((E.sk x).arrayMultiline s b || tooLong (E.sk x) pre d skip len true cs tail b)) =
      E.arrayMultiline s b := by
  refine (multi_long (E := E.sk x) hE.single ?_).2 hE.width
  intro hw hl
  have := tooLong_none (E := E.sk x) hw b hl
  unfold Env.arrayMultiline
  rw [this]
  simp

theorem table_decision {E : Env} (hE : E.Still) (x : Bool) {pre : List Piece} {d : Nat} {skip : Bool} {len cs tail : Nat} (s : Option Text)
    (b : Body) : (!(E.sk x).singleLine && ((E.sk x).tableMultiline s b ||
      (decide ((E.sk x).version ≠ .V1_0_0) && tooLong (E.sk x) pre d skip len true cs tail b))) = E.tableMultiline s b := by
  refine (multi_long' (E := E.sk x) hE.single ?_).2 hE.width
  intro hw hl
  rw [Bool.and_eq_true] at hl
  have := tooLong_none (E := E.sk x) hw b hl.2
  unfold Env.tableMultiline
  rw [if_neg (by simpa using hl.1), this]
  simp

mutual
theorem fmt_norm {E : Env} (hE : E.Still) (x : Bool) (pre : List Piece) (d : Nat) (skip : Bool) (al : Option Nat) :
    (n : Node) → {n' : Node} → NormN E n n' → CalmL E n.words → fmt (E.sk x) pre d skip none al n' = fmt (E.sk x) pre d skip none al n
  | .lit l k t tr, n', h, hc => by
    rw [NormN] at h
    subst h
    rw [Node.words] at hc
    have hlit : (E.sk x).literal (E.litKind k t) (E.literalText k t) = (E.sk x).literal k t := hc.r.hd
    rw [fmt, fmt]
    rw [leading_norm E x d skip l hc.l, skipAfter_norm, hlit, trailing_norm E x _ al tr hc.r.tl]
  | .array l s b tr, n', h, hc => by
    rw [NormN] at h
    obtain ⟨b', multi, rfl, hm, hw, h1, h2⟩ := h
    have hw := hw hE.width
    rw [Node.words] at hc
    have hcl := hc.l.l.l
    have hcs := hc.l.l.r.tl
    have hcb := hc.l.r
    have hct := hc.r.tl
    rw [fmt, fmt]
    simp only []
    rw [array_decision hE, array_decision hE, arrayMultiline_norm b hm h1 h2 (normB_multiline b) (normF_multiline b),
      leading_norm E x d skip l hcl, skipAfter_norm, trailing_norm E x _ al s hcs, ← hw]
    cases multi with
    | true =>
      simp only [if_true]
      rw [fmtGroups_norm hE x _ (d + 1) false al b (h1 rfl) (fun h => by cases h) hcb]
      rw [trailing_norm E x _ al tr hct]
    | false =>
      simp only [Bool.false_eq_true, if_false]
      rw [normF_hasItem b (h2 rfl)]
      split
      · rw [fmtItems_norm hE x _ d al _ b (h2 rfl) hcb]
        rw [trailing_norm E x _ al tr hct]
      · rw [trailing_norm E x _ al tr hct]
  | .table l s b tr, n', h, hc => by
    rw [NormN] at h
    obtain ⟨b', multi, rfl, hm, hw, h1, h2⟩ := h
    have hw := hw hE.width
    rw [Node.words] at hc
    have hcl := hc.l.l.l
    have hcs := hc.l.l.r.tl
    have hcb := hc.l.r
    have hct := hc.r.tl
    rw [fmt, fmt]
    simp only []
    rw [table_decision hE, table_decision hE, tableMultiline_norm b hm h1 h2 (normB_multiline b) (normF_multiline b),
      leading_norm E x d skip l hcl, skipAfter_norm, trailing_norm E x _ al s hcs, ← hw, equalWidth_none hE, equalWidth_none hE]
    cases multi with
    | true =>
      simp only [if_true]
      rw [fmtGroups_norm hE x _ (d + 1) false al b (h1 rfl) (fun h => by cases h) hcb]
      rw [trailing_norm E x _ al tr hct]
    | false =>
      simp only [Bool.false_eq_true, if_false]
      rw [normF_hasItem b (h2 rfl)]
      split
      · rw [fmtItems_norm hE x _ d al _ b (h2 rfl) hcb]
        rw [trailing_norm E x _ al tr hct]
      · rw [trailing_norm E x _ al tr hct]
  | .pair l ks s v, n', h, hc => by
    rw [NormN] at h
    obtain ⟨_, v', rfl, hv⟩ := h
    rw [Node.words] at hc
    rw [fmt, fmt]
    rw [leading_norm E x d skip l hc.l.l, skipAfter_norm, keys_norm E x none ks hc.l.r, fmt_norm hE x _ d true al v hv hc.r.tl]
theorem fmtGroups_norm {E : Env} (hE : E.Still) (x : Bool) (pre : List Piece) (d : Nat) (written : Bool) (al : Option Nat) :
    {prev : Prev} → (b : Body) → {b' : Body} → NormB E prev b b' → (written = true → prev ≠ .start) → CalmL E b.words →
      fmtGroups (E.sk x) pre d written none al b' = fmtGroups (E.sk x) pre d written none al b
  | _, .nil, b', h, _, _ => by rw [NormB] at h; subst h; rfl
  | prev, .dangling n cs rest, b', h, hp, hc => by
    rw [NormB] at h
    obtain ⟨rest', rfl, hr⟩ := h
    rw [Body.words] at hc
    rw [fmtGroups, fmtGroups]
    split
    · exact fmtGroups_norm hE x pre d written al rest hr (fun _ => by decide) hc.r
    · simp only []
      have hs : (if written then (E.sk x).separator (E.blank prev n) else []) = (if written then (E.sk x).separator n else []) := by
        cases written with
        | false => rfl
        | true => simp only [if_true]; exact separator_norm E x (hp rfl) n
      rw [hs, danglingGroup_norm E x d cs hc.l, fmtGroups_norm hE x _ d true al rest hr (fun _ => by decide) hc.r]
  | prev, .item f n c rest, b', h, hp, hc => by
    rw [NormB] at h
    obtain ⟨n', rest', rfl, hn, hr⟩ := h
    rw [Body.words] at hc
    rw [fmtGroups, fmtGroups]
    rw [before_norm E x prev written hp f, fmt_norm hE x _ d false al n hn hc.l.l, norm_trailing hn, rt_isSome,
      comma_norm E x _ d al _ c hc.l.r, fmtGroups_norm hE x _ d true al rest hr (fun _ => by decide) hc.r]
theorem fmtItems_norm {E : Env} (hE : E.Still) (x : Bool) (pre : List Piece) (d : Nat) (al : Option Nat) (sp : Nat) :
    {first : Bool} → (b : Body) → {b' : Body} → NormF E first b b' → CalmL E b.words →
      fmtItems (E.sk x) pre d first al sp b' = fmtItems (E.sk x) pre d first al sp b
  | _, .nil, b', h, _ => by rw [NormF] at h; subst h; rfl
  | first, .dangling n cs rest, b', h, hc => by
    rw [NormF] at h
    rw [Body.words] at hc
    show _ = fmtItems (E.sk x) pre d first al sp rest
    exact fmtItems_norm hE x pre d al sp rest h hc.r
  | first, .item f n c rest, b', h, hc => by
    rw [NormF] at h
    obtain ⟨n', rest', rfl, hn, hr⟩ := h
    rw [Body.words] at hc
    rw [fmtItems, fmtItems]
    rw [fmt_norm hE x _ d true al n hn hc.l.l, fmtItems_norm hE x _ d al sp rest hr hc.r]
end

/-! ### tables -/

theorem fmt_addTrailing {E : Env} (hE : E.Still) (x : Bool) (pre : List Piece) (d : Nat) (skip : Bool) (al : Option Nat) (c : Text) :
    (n : Node) → n.trailing = none → fmt (E.sk x) pre d skip none al (n.addTrailing (some c)) =
      fmt (E.sk x) pre d skip none al n ++
        ((E.sk x).alignSpace (pre ++ fmt (E.sk x) pre d skip none al n) al ++ (E.sk x).trailingComment c)
  | .lit l k t tr, h => by
    have h : tr = none := h
    subst h
    rw [Node.addTrailing, fmt, fmt]
    simp only [Option.none_or, Env.trailing, List.append_nil]
  | .array l s b tr, h => by
    have h : tr = none := h
    subst h
    rw [Node.addTrailing, fmt, fmt]
    simp only []
    rw [array_decision hE, array_decision hE]
    simp only [Option.none_or, Env.trailing, List.append_nil]
  | .table l s b tr, h => by
    have h : tr = none := h
    subst h
    rw [Node.addTrailing, fmt, fmt]
    simp only []
    rw [table_decision hE, table_decision hE]
    simp only [Option.none_or, Env.trailing, List.append_nil]
  | .pair l ks s v, h => by
    rw [Node.addTrailing, fmt, fmt]
    rw [fmt_addTrailing hE x _ d true al c v h]
    simp only [List.append_assoc]

theorem fmt_norm' {E : Env} (hE : E.Still) (pre : List Piece) (d : Nat) (skip : Bool) (al : Option Nat) (n : Node) {n' : Node}
    (h : NormN E n n') (hc : CalmL E n.words) : fmt E pre d skip none al n' = fmt E pre d skip none al n :=
  fmt_norm hE E.skipComment pre d skip al n h hc

theorem fmt_bare {E : Env} (hE : E.Still) (d : Nat) (n : Node) {n' : Node} (h : NormN E n n') (hc : CalmL E n.words) (c : Option Comma) :
    fmt (E.sk true) [] d false none none (n'.addTrailing (E.tc n.trailing.isSome c).1) = fmt (E.sk true) [] d false none none n := by
  rw [← fmt_norm hE true [] d false none n h hc]
  cases hx : (E.tc n.trailing.isSome c).1 with
  | none => rw [addTrailing_none]
  | some t =>
    have hn : n'.trailing = none := by
      rw [norm_trailing h]
      cases ht : n.trailing with
      | none => rfl
      | some u =>
        exfalso
        rw [ht] at hx
        revert hx
        cases c with
        | none => exact nofun
        | some c =>
          rw [Env.tc]
          cases c.trailing with
          | none => simp only []; split <;> exact nofun
          | some z => simp only [Option.isSome_some, Bool.not_true, Bool.and_false, Bool.false_eq_true, if_false]; exact nofun
    rw [fmt_addTrailing hE true [] d false none t n' hn]
    have : (E.sk true).trailingComment t = [] := rfl
    rw [this]
    simp [Env.alignSpace]

theorem continued_norm {E : Env} (hE : E.Still) (d : Nat) : {prev : Prev} → (b : Body) → {b' : Body} → NormP E prev b b' → CalmL E b.words →
    b'.continued.map (fun n => fmt (E.sk true) [] d false none none n) = b.continued.map (fun n => fmt (E.sk true) [] d false none none n)
  | _, .nil, b', h, _ => by rw [NormP] at h; subst h; rfl
  | _, .dangling n cs rest, b', h, _ => by rw [NormP] at h; obtain ⟨rest', rfl, -⟩ := h; rfl
  | prev, .item f n c rest, b', h, hc => by
    rw [NormP] at h
    obtain ⟨n', rest', rfl, hn, hr⟩ := h
    rw [Body.words] at hc
    cases f with
    | some k => rfl
    | none =>
      show fmt (E.sk true) [] d false none none _ :: rest'.continued.map _ = fmt (E.sk true) [] d false none none n :: rest.continued.map _
      rw [fmt_bare hE d n hn hc.l.l, continued_norm hE d rest hr hc.r]

theorem groupAlignWidth_eq {E : Env} (d : Nat) {g g' : List Node}
    (h : g'.map (fun n => fmt (E.sk true) [] d false none none n) = g.map (fun n => fmt (E.sk true) [] d false none none n)) :
    E.groupAlignWidth d none g' = E.groupAlignWidth d none g := by
  unfold Env.groupAlignWidth
  have e : ∀ g : List Node, (g.map fun n => E.alignmentWidth
      (textOf E.lineEnding (fmt { E with skipComment := true } [] d false none none n))) =
      (g.map (fun n => fmt (E.sk true) [] d false none none n)).map (fun p => E.alignmentWidth (textOf E.lineEnding p)) := by
    intro g
    rw [List.map_map]
    rfl
  rw [e, e, h]

theorem tableComma_norm {E : Env} (hE : E.Still) (pre : List Piece) (d : Nat) (al : Option Nat) (n : Node) {n' : Node} (c : Option Comma)
    (hn : NormN E n n') (hw : CalmL E n.words) (hc : CalmL E (commaWords c)) :
    fmt E pre d false none al (n'.addTrailing (E.tc n.trailing.isSome c).1) ++
      E.tableComma (pre ++ fmt E pre d false none al (n'.addTrailing (E.tc n.trailing.isSome c).1)) d al
        (n'.addTrailing (E.tc n.trailing.isSome c).1).trailing.isSome (E.tc n.trailing.isSome c).2 =
    fmt E pre d false none al n ++ E.tableComma (pre ++ fmt E pre d false none al n) d al n.trailing.isSome c := by
  have ht : n'.trailing.isSome = n.trailing.isSome := by rw [norm_trailing hn, rt_isSome]
  have hf := fmt_norm' hE pre d false al n hn hw
  cases c with
  | none =>
    rw [Env.tc]
    simp only [addTrailing_none, Env.tableComma]
    rw [hf]
  | some c =>
    have hl : E.leading d false (E.rl c.leading) = E.leading d false c.leading := leading_norm E E.skipComment d false c.leading hc.l
    rw [Env.tc]
    cases hct : c.trailing with
    | none =>
      simp only []
      cases hle : c.leading.isEmpty with
      | true =>
        simp only [if_true, addTrailing_none, Env.tableComma]
        rw [hf, hct]
        simp only [hle, if_true]
      | false =>
        simp only [Bool.false_eq_true, if_false, addTrailing_none, Env.tableComma, Env.rc]
        rw [hf, hct]
        simp only [Env.rt, Option.map_none, rl_isEmpty, hle, Bool.false_eq_true, if_false]
        rw [hl]
    | some t =>
      have hr : E.renderComment true (E.renderComment true t) = E.renderComment true t := by
        have := hc.r
        rw [hct] at this
        exact this.hd
      have hr' : E.trailingComment (E.renderComment true t) = E.trailingComment t := by
        unfold Env.trailingComment
        rw [hr]
      simp only []
      split
      · rename_i hcond
        rw [Bool.and_eq_true] at hcond
        have htr : n.trailing = none := by
          cases h : n.trailing with
          | none => rfl
          | some u => rw [h] at hcond; exact absurd hcond.2 (by simp)
        have hn' : n'.trailing = none := by rw [norm_trailing hn, htr]; rfl
        have := fmt_addTrailing hE E.skipComment pre d false al (E.renderComment true t) n' hn'
        change fmt E pre d false none al _ = fmt E pre d false none al n' ++ (E.alignSpace (pre ++ fmt E pre d false none al n') al ++ E.trailingComment _) at this
        simp only []
        rw [this, hf, hr']
        simp only [Env.tableComma, hct, hcond.1, htr, Option.isSome_none, Bool.not_false, Bool.and_self, if_true, List.append_nil]
      · rename_i hcond
        simp only [addTrailing_none, Env.tableComma, Env.rc]
        rw [hf, hct, ht]
        simp only [Env.rt, Option.map_some, rl_isEmpty, if_neg hcond]
        rw [hr', hl]

theorem nextAlign_norm {E : Env} (hE : E.Still) (d : Nat) (al : Option Nat) (prev : Prev) (f : Option Nat) (n : Node) {n' : Node} (c : Option Comma)
    (b : Body) {b' : Body} (hn : NormN E n n') (hr : NormP E .item b b') (hw : CalmL E n.words) (hb : CalmL E b.words) :
    E.nextAlignWidth d none al (f.map (E.blank prev)) (n'.addTrailing (E.tc n.trailing.isSome c).1 :: b'.continued) =
      E.nextAlignWidth d none al f (n :: b.continued) := by
  cases f with
  | none => rfl
  | some k =>
    simp only [Option.map_some, Env.nextAlignWidth]
    refine groupAlignWidth_eq d ?_
    rw [List.map_cons, List.map_cons, fmt_bare hE d n hn hw, continued_norm hE d b hr hb]

theorem nextEqual_none {E : Env} (hE : E.Still) (f : Option Nat) (g : List Node) : E.nextEqualWidth none f g = none := by
  cases f with
  | none => rfl
  | some k =>
    show E.groupEqualWidth g = none
    unfold Env.groupEqualWidth
    rw [hE.equal]
    rfl

theorem fmtPairs_norm {E : Env} (hE : E.Still) (pre : List Piece) (d : Nat) (written : Bool) (al : Option Nat) :
    {prev : Prev} → (b : Body) → {b' : Body} → NormP E prev b b' → (written = true → prev ≠ .start) → CalmL E b.words →
      fmtPairs E pre d written none al b' = fmtPairs E pre d written none al b
  | _, .nil, b', h, _, _ => by rw [NormP] at h; subst h; rfl
  | prev, .dangling n cs rest, b', h, hp, hc => by
    rw [NormP] at h
    obtain ⟨rest', rfl, hr⟩ := h
    rw [Body.words] at hc
    rw [fmtPairs, fmtPairs]
    split
    · exact fmtPairs_norm hE pre d written al rest hr (fun _ => by decide) hc.r
    · have hs : (if written then E.separator (E.blank prev n) else []) = (if written then E.separator n else []) := by
        cases written with
        | false => rfl
        | true => simp only [if_true]; exact separator_norm E E.skipComment (hp rfl) n
      have hd : E.danglingGroup d (E.rl cs) = E.danglingGroup d cs := danglingGroup_norm E E.skipComment d cs hc.l
      simp only []
      rw [hs, hd, fmtPairs_norm hE _ d true al rest hr (fun _ => by decide) hc.r]
  | prev, .item f n c rest, b', h, hp, hc => by
    rw [NormP] at h
    obtain ⟨n', rest', rfl, hn, hr⟩ := h
    rw [Body.words] at hc
    rw [fmtPairs, fmtPairs]
    simp only [nextEqual_none hE]
    rw [nextAlign_norm hE d al prev f n c rest hn hr hc.l.l hc.r]
    have hb : E.before written (f.map (E.blank prev)) = E.before written f := before_norm E E.skipComment prev written hp f
    rw [hb]
    have := tableComma_norm hE (pre ++ E.before written f) d (E.nextAlignWidth d none al f (n :: rest.continued)) n c hn hc.l.l hc.l.r
    simp only [List.append_assoc] at this ⊢
    rw [this, fmtPairs_norm hE _ d true _ rest hr (fun _ => by decide) hc.r]
    rw [← List.append_assoc (fmt E _ d false none _ _), this]
    simp only [List.append_assoc]

/-! ### the source text of the keys does not matter -/

mutual
theorem NormN.of_bare {E : Env} : (n : Node) → {n' m : Node} → NormN E n n' → m.bare = n'.bare → NormN E n m
  | .lit l k t tr, n', m, h, e => by
    rw [NormN] at h ⊢
    subst h
    cases m <;> simp only [Node.bare] at e <;> first | exact e | cases e
  | .array l s b tr, n', m, h, e => by
    rw [NormN] at h ⊢
    obtain ⟨b', multi, rfl, h1, h2, h3, h4⟩ := h
    cases m with
    | array l2 s2 b2 t2 =>
      simp only [Node.bare, Node.array.injEq] at e
      obtain ⟨rfl, rfl, e, rfl⟩ := e
      exact ⟨b2, multi, rfl, h1, h2, fun hm => (h3 hm).of_bare b e, fun hm => (h4 hm).of_bare b e⟩
    | lit => simp [Node.bare] at e
    | table => simp [Node.bare] at e
    | pair => simp [Node.bare] at e
  | .table l s b tr, n', m, h, e => by
    rw [NormN] at h ⊢
    obtain ⟨b', multi, rfl, h1, h2, h3, h4⟩ := h
    cases m with
    | table l2 s2 b2 t2 =>
      simp only [Node.bare, Node.table.injEq] at e
      obtain ⟨rfl, rfl, e, rfl⟩ := e
      exact ⟨b2, multi, rfl, h1, h2, fun hm => (h3 hm).of_bare b e, fun hm => (h4 hm).of_bare b e⟩
    | lit => simp [Node.bare] at e
    | array => simp [Node.bare] at e
    | pair => simp [Node.bare] at e
  | .pair l ks s v, n', m, h, e => by
    rw [NormN] at h ⊢
    obtain ⟨src, v', rfl, hv⟩ := h
    cases m with
    | pair l2 k2 s2 v2 =>
      simp only [Node.bare, Node.pair.injEq, true_and] at e
      obtain ⟨rfl, rfl, e⟩ := e
      exact ⟨s2, v2, rfl, hv.of_bare v e⟩
    | lit => simp [Node.bare] at e
    | array => simp [Node.bare] at e
    | table => simp [Node.bare] at e
theorem NormB.of_bare {E : Env} : {prev : Prev} → (b : Body) → {b' m : Body} → NormB E prev b b' → m.bare = b'.bare → NormB E prev b m
  | _, .nil, b', m, h, e => by
    rw [NormB] at h ⊢
    subst h
    cases m <;> simp only [Body.bare] at e <;> first | rfl | cases e
  | _, .dangling k cs rest, b', m, h, e => by
    rw [NormB] at h ⊢
    obtain ⟨rest', rfl, hr⟩ := h
    cases m with
    | dangling k2 c2 r2 =>
      simp only [Body.bare, Body.dangling.injEq] at e
      obtain ⟨rfl, rfl, e⟩ := e
      exact ⟨r2, rfl, hr.of_bare rest e⟩
    | nil => simp [Body.bare] at e
    | item => simp [Body.bare] at e
  | _, .item f n c rest, b', m, h, e => by
    rw [NormB] at h ⊢
    obtain ⟨n', rest', rfl, hn, hr⟩ := h
    cases m with
    | item f2 n2 c2 r2 =>
      simp only [Body.bare, Body.item.injEq] at e
      obtain ⟨rfl, e1, rfl, e2⟩ := e
      exact ⟨n2, r2, rfl, hn.of_bare n e1, hr.of_bare rest e2⟩
    | nil => simp [Body.bare] at e
    | dangling => simp [Body.bare] at e
theorem NormF.of_bare {E : Env} : {first : Bool} → (b : Body) → {b' m : Body} → NormF E first b b' → m.bare = b'.bare → NormF E first b m
  | _, .nil, b', m, h, e => by
    rw [NormF] at h ⊢
    subst h
    cases m <;> simp only [Body.bare] at e <;> first | rfl | cases e
  | _, .dangling k cs rest, b', m, h, e => by
    rw [NormF] at h ⊢
    exact h.of_bare rest e
  | _, .item f n c rest, b', m, h, e => by
    rw [NormF] at h ⊢
    obtain ⟨n', rest', rfl, hn, hr⟩ := h
    cases m with
    | item f2 n2 c2 r2 =>
      simp only [Body.bare, Body.item.injEq] at e
      obtain ⟨rfl, e1, rfl, e2⟩ := e
      exact ⟨n2, r2, rfl, hn.of_bare n e1, hr.of_bare rest e2⟩
    | nil => simp [Body.bare] at e
    | dangling => simp [Body.bare] at e
end

theorem bare_addTrailing (c : Option Text) : (n : Node) → (n.addTrailing c).bare = n.bare.addTrailing c
  | .lit .. => rfl
  | .array .. => by simp [Node.addTrailing, Node.bare]
  | .table .. => by simp [Node.addTrailing, Node.bare]
  | .pair l ks s v => by simp [Node.addTrailing, Node.bare, bare_addTrailing c v]

/-- A node whose source texts are those of another one. -/
theorem bare_split (c : Option Text) : (n m : Node) → m.bare = (n.addTrailing c).bare → ∃ n2 : Node, m = n2.addTrailing c ∧ n2.bare = n.bare
  | .lit l k t tr, m, e => by
    refine ⟨.lit l k t tr, ?_, rfl⟩
    cases m <;> simp only [Node.bare, Node.addTrailing] at e <;> first | exact e | cases e
  | .array l s b tr, m, e => by
    cases m with
    | array l2 s2 b2 t2 =>
      simp only [Node.bare, Node.addTrailing, Node.array.injEq] at e
      obtain ⟨rfl, rfl, e, rfl⟩ := e
      exact ⟨.array l2 s2 b2 tr, rfl, by simp only [Node.bare, e]⟩
    | lit => simp [Node.bare, Node.addTrailing] at e
    | table => simp [Node.bare, Node.addTrailing] at e
    | pair => simp [Node.bare, Node.addTrailing] at e
  | .table l s b tr, m, e => by
    cases m with
    | table l2 s2 b2 t2 =>
      simp only [Node.bare, Node.addTrailing, Node.table.injEq] at e
      obtain ⟨rfl, rfl, e, rfl⟩ := e
      exact ⟨.table l2 s2 b2 tr, rfl, by simp only [Node.bare, e]⟩
    | lit => simp [Node.bare, Node.addTrailing] at e
    | array => simp [Node.bare, Node.addTrailing] at e
    | pair => simp [Node.bare, Node.addTrailing] at e
  | .pair l ks s v, m, e => by
    cases m with
    | pair l2 k2 s2 v2 =>
      simp only [Node.bare, Node.addTrailing, Node.pair.injEq, true_and] at e
      obtain ⟨rfl, rfl, e⟩ := e
      obtain ⟨w, rfl, hw⟩ := bare_split c v v2 e
      exact ⟨.pair l2 k2 s2 w, rfl, by simp only [Node.bare, hw]⟩
    | lit => simp [Node.bare, Node.addTrailing] at e
    | array => simp [Node.bare, Node.addTrailing] at e
    | table => simp [Node.bare, Node.addTrailing] at e

theorem NormP.of_bare {E : Env} : {prev : Prev} → (b : Body) → {b' m : Body} → NormP E prev b b' → m.bare = b'.bare → NormP E prev b m
  | _, .nil, b', m, h, e => by
    rw [NormP] at h ⊢
    subst h
    cases m <;> simp only [Body.bare] at e <;> first | rfl | cases e
  | _, .dangling k cs rest, b', m, h, e => by
    rw [NormP] at h ⊢
    obtain ⟨rest', rfl, hr⟩ := h
    cases m with
    | dangling k2 c2 r2 =>
      simp only [Body.bare, Body.dangling.injEq] at e
      obtain ⟨rfl, rfl, e⟩ := e
      exact ⟨r2, rfl, hr.of_bare rest e⟩
    | nil => simp [Body.bare] at e
    | item => simp [Body.bare] at e
  | _, .item f n c rest, b', m, h, e => by
    rw [NormP] at h ⊢
    obtain ⟨n', rest', rfl, hn, hr⟩ := h
    cases m with
    | item f2 n2 c2 r2 =>
      simp only [Body.bare, Body.item.injEq] at e
      obtain ⟨rfl, e1, rfl, e2⟩ := e
      obtain ⟨n3, rfl, h3⟩ := bare_split _ _ _ e1
      exact ⟨n3, r2, rfl, hn.of_bare n h3, hr.of_bare rest e2⟩
    | nil => simp [Body.bare] at e
    | dangling => simp [Body.bare] at e

theorem NormS.of_bare {E : Env} {s s' m : Section} (h : NormS E s s') (e : m.bare = s'.bare) : NormS E s m := by
  obtain ⟨h1, h2, h3, h4, h5⟩ := h
  simp only [Section.bare, Section.mk.injEq] at e
  obtain ⟨e1, e2, e3, e4, e5, e6⟩ := e
  exact ⟨by simp_all, by simp_all, by simp_all, by simp_all, h5.of_bare _ (by assumption)⟩

theorem NormSs.of_bare {E : Env} : (ss : List Section) → {ss' ms : List Section} → NormSs E ss ss' → ms.map Section.bare = ss'.map Section.bare →
    NormSs E ss ms
  | [], ss', ms, h, e => by
    have h : ss' = [] := h
    subst h
    simpa [NormSs] using e
  | s :: ss, ss', ms, h, e => by
    obtain ⟨s', rest', rfl, h1, h2⟩ := h
    cases ms with
    | nil => simp at e
    | cons m ms =>
      simp only [List.map_cons, List.cons.injEq] at e
      exact ⟨m, ms, rfl, h1.of_bare e.1, NormSs.of_bare ss h2 e.2⟩

theorem NormD.of_bare {E : Env} {doc doc' m : Doc} (h : NormD E doc doc') (e : m.bare = doc'.bare) : NormD E doc m := by
  obtain ⟨h1, h2, h3⟩ := h
  simp only [Doc.bare, Doc.mk.injEq] at e
  refine ⟨h1.of_bare _ e.1, NormSs.of_bare _ h2 e.2, fun a b s hs s' hs' => ?_⟩
  cases hm : m.sections with
  | nil => rw [hm] at hs'; cases hs'
  | cons x xs =>
    rw [hm] at hs' e
    cases hd : doc'.sections with
    | nil => rw [hd] at e; simp at e
    | cons y ys =>
      rw [hd] at e h3
      simp only [List.map_cons, List.cons.injEq] at e
      simp only [List.head?_cons, Option.mem_def, Option.some.injEq] at hs'
      subst hs'
      have := h3 a b s hs y (by simp)
      rw [← this]
      have h := e.2.1
      simp only [Section.bare, Section.mk.injEq] at h
      simp_all

/-! ### headers -/

theorem startsWith_norm {E : Env} : (as bs : List AstKey) → CalmL E (keyWords as) → CalmL E (keyWords bs) →
    startsWith (as.map E.rk) (bs.map E.rk) = startsWith as bs
  | [], [], _, _ => rfl
  | _ :: _, [], _, _ => by simp [startsWith]
  | [], _ :: _, _, _ => by simp [startsWith]
  | a :: as, b :: bs, ha, hb => by
    have ca : Calm E (.key a) := by cases as <;> exact ha.hd
    have cb : Calm E (.key b) := by cases bs <;> exact hb.hd
    have ha' : CalmL E (keyWords as) := by
      cases as with
      | nil => intro w hw; cases hw
      | cons x xs => exact ha.tl.tl
    have hb' : CalmL E (keyWords bs) := by
      cases bs with
      | nil => intro w hw; cases hw
      | cons x xs => exact hb.tl.tl
    simp only [List.map_cons, startsWith]
    rw [ca.2.1, cb.2.1, startsWith_norm as bs ha' hb']

theorem sameAs_norm {E : Env} (as bs : List AstKey) (ha : CalmL E (keyWords as)) (hb : CalmL E (keyWords bs)) :
    sameAs (as.map E.rk) (bs.map E.rk) = sameAs as bs := by
  unfold sameAs
  rw [startsWith_norm as bs ha hb, List.length_map, List.length_map]

theorem calm_key {E : Env} : {ks : List AstKey} → CalmL E (keyWords ks) → ∀ k ∈ ks, Calm E (.key k)
  | [], _, k, hk => by cases hk
  | [a], h, k, hk => by rw [List.mem_singleton.mp hk]; exact h.hd
  | a :: b :: ks, h, k, hk => by
    rcases List.mem_cons.mp hk with rfl | hk
    · exact h.hd
    · exact calm_key (ks := b :: ks) h.tl.tl k hk

theorem sameFirst_norm {E : Env} (v : TomlVersion) (as bs : List AstKey) (ha : CalmL E (keyWords as)) (hb : CalmL E (keyWords bs)) :
    sameFirst v (as.map E.rk) (bs.map E.rk) = sameFirst v as bs := by
  cases as with
  | nil => rfl
  | cons a as =>
    cases bs with
    | nil => rfl
    | cons b bs =>
      simp only [List.map_cons, sameFirst]
      rw [(calm_key ha a (by simp)).2.1, (calm_key hb b (by simp)).2.1]

theorem takeWhile_norm {α : Type} (f : α → α) (p q : α → Bool) : (l : List α) → (∀ a ∈ l, q (f a) = p a) →
    (l.map f).takeWhile q = (l.takeWhile p).map f
  | [], _ => rfl
  | a :: l, h => by
    rw [List.map_cons, List.takeWhile_cons, List.takeWhile_cons, h a (by simp), takeWhile_norm f p q l (fun x hx => h x (by simp [hx]))]
    split <;> rfl

theorem filter_norm {α : Type} (f : α → α) (p q : α → Bool) : (l : List α) → (∀ a ∈ l, q (f a) = p a) →
    (l.map f).filter q = (l.filter p).map f
  | [], _ => rfl
  | a :: l, h => by
    rw [List.map_cons, List.filter_cons, List.filter_cons, h a (by simp), filter_norm f p q l (fun x hx => h x (by simp [hx]))]
    split <;> rfl

theorem startsWith_some : (as bs : List AstKey) → startsWith as bs = true → ∀ k ∈ bs, (rawKey? .V1_1_0 k).isSome = true
  | _, [], _, k, hk => by cases hk
  | [], _ :: _, h, _, _ => by simp [startsWith] at h
  | a :: as, b :: bs, h, k, hk => by
    simp only [startsWith, Bool.and_eq_true] at h
    rcases List.mem_cons.mp hk with rfl | hk
    · have h1 := h.1
      split at h1
      · rename_i e; rw [e]; rfl
      · cases h1
    · exact startsWith_some as bs h.2 k hk

theorem parentCount_norm {E : Env} (v : TomlVersion) (ps : List (List AstKey)) (h : List AstKey)
    (hp : ∀ p ∈ ps, CalmL E (keyWords p)) (hh : CalmL E (keyWords h)) :
    parentCount v (ps.map (·.map E.rk)) (h.map E.rk) = parentCount v ps h := by
  have h1 := takeWhile_norm (fun p : List AstKey => p.map E.rk) (sameFirst v h) (sameFirst v (h.map E.rk)) ps
    (fun a ha => sameFirst_norm v h a hh (hp a ha))
  have s1 : ∀ a ∈ ps.takeWhile (sameFirst v h), a ∈ ps := fun a ha => (List.takeWhile_sublist _).subset ha
  have h2 := filter_norm (fun p : List AstKey => p.map E.rk) (startsWith h ·) (startsWith (h.map E.rk) ·) (ps.takeWhile (sameFirst v h))
    (fun a ha => startsWith_norm h a hh (hp a (s1 a ha)))
  have h3 := filter_norm (fun p : List AstKey => p.map E.rk) (fun ks => decide (ks.length < h.length))
    (fun ks => decide (ks.length < (h.map E.rk).length)) ((ps.takeWhile (sameFirst v h)).filter (startsWith h ·))
    (fun a _ => by simp)
  unfold parentCount
  rw [h1, h2, h3, List.map_map]
  congr 2
  refine List.map_congr_left fun a ha => ?_
  have ha' := List.mem_filter.mp (List.mem_filter.mp ha).1
  have ha : a ∈ ps := s1 a ha'.1
  have hsome := startsWith_some h a ha'.2
  show (a.map E.rk).map (rawKey v) = a.map (rawKey v)
  rw [List.map_map]
  exact List.map_congr_left fun k hk => (calm_key (hp a ha) k hk).2.2 (hsome k hk) v

theorem normP_isEmpty {E : Env} {prev : Prev} {b b' : Body} (h : NormP E prev b b') : b'.isEmpty = b.isEmpty := by
  cases b with
  | nil => have h : b' = .nil := h; subst h; rfl
  | dangling n cs rest => obtain ⟨rest', rfl, -⟩ := h; rfl
  | item f n c rest => obtain ⟨n', rest', rfl, -⟩ := h; rfl

theorem normP_startsDangling {E : Env} {prev : Prev} {b b' : Body} (h : NormP E prev b b') : b'.startsDangling = b.startsDangling := by
  cases b with
  | nil => have h : b' = .nil := h; subst h; rfl
  | dangling n cs rest => obtain ⟨rest', rfl, -⟩ := h; rfl
  | item f n c rest => obtain ⟨n', rest', rfl, -⟩ := h; rfl

theorem normP_itemCount {E : Env} : {prev : Prev} → (b : Body) → {b' : Body} → NormP E prev b b' → b'.itemCount = b.itemCount
  | _, .nil, b', h => by have h : b' = .nil := h; subst h; rfl
  | _, .dangling n cs rest, b', h => by
    obtain ⟨rest', rfl, h⟩ := h
    show rest'.itemCount = rest.itemCount
    exact normP_itemCount rest h
  | _, .item f n c rest, b', h => by
    obtain ⟨n', rest', rfl, -, h⟩ := h
    simp only [Body.itemCount]
    rw [normP_itemCount rest h]

theorem normP_noItem {E : Env} : {prev : Prev} → (b : Body) → {b' : Body} → NormP E prev b b' → b'.noItem = b.noItem
  | _, .nil, b', h => by have h : b' = .nil := h; subst h; rfl
  | _, .dangling n cs rest, b', h => by
    obtain ⟨rest', rfl, h⟩ := h
    show rest'.noItem = rest.noItem
    exact normP_noItem rest h
  | _, .item f n c rest, b', h => by
    obtain ⟨n', rest', rfl, -, h⟩ := h
    rfl

theorem calm_header {E : Env} {s : Section} (h : CalmL E s.words) : CalmL E (keyWords s.header) := by
  unfold Section.words at h
  intro w hw
  exact h w (by simp [hw])

theorem blankBetween_norm {E : Env} {p p' s s' : Section} (hp : NormS E p p') (hs : NormS E s s') (cp : CalmL E p.words) (cs : CalmL E s.words) :
    blankBetween p' s' = blankBetween p s := by
  obtain ⟨p1, p2, p3, p4, p5⟩ := hp
  obtain ⟨s1, s2, s3, s4, s5⟩ := hs
  unfold blankBetween
  rw [p1, p3, s1, s2, s3, rl_isEmpty, normP_itemCount _ p5, normP_startsDangling p5,
    startsWith_norm _ _ (calm_header cs) (calm_header cp), sameAs_norm _ _ (calm_header cp) (calm_header cs)]

theorem fmtSection_norm {E : Env} (hE : E.Still) (pre : List Piece) (ps : List (List AstKey)) {s s' : Section} (hs : NormS E s s')
    (hp : ∀ p ∈ ps, CalmL E (keyWords p)) (hc : CalmL E s.words) :
    fmtSection E pre (ps.map (·.map E.rk)) s' = fmtSection E pre ps s := by
  obtain ⟨s1, s2, s3, s4, s5⟩ := hs
  have hk : ∀ w, E.keys (s.header.map E.rk) w = E.keys s.header w := fun w => keys_norm E E.skipComment w s.header (calm_header hc)
  have hl : ∀ d, E.leading d false (E.rl s.leading) = E.leading d false s.leading := fun d =>
    leading_norm E E.skipComment d false s.leading (fun w hw => hc w (by unfold Section.words; simp [hw]))
  have ht : E.trailing [] none (E.rt s.trailing) = E.trailing [] none s.trailing :=
    trailing_norm E E.skipComment [] none s.trailing (fun w hw => hc w (by unfold Section.words; simp [hw]))
  have hb : CalmL E s.body.words := fun w hw => hc w (by unfold Section.words; simp [hw])
  unfold fmtSection
  simp only []
  rw [s1, s2, s3, s4, parentCount_norm E.version ps s.header hp (calm_header hc), hl, hk, ht, normP_isEmpty s5]
  split
  · rfl
  · rw [fmtPairs_norm hE _ _ false none s.body s5 nofun hb]

theorem fmtSections_norm {E : Env} (hE : E.Still) : (pre : List Piece) → (ps : List (List AstKey)) → {p p' : Section} → NormS E p p' →
    (ss : List Section) → {ss' : List Section} → NormSs E ss ss' →
    (∀ p ∈ ps, CalmL E (keyWords p)) → CalmL E p.words → (∀ s ∈ ss, CalmL E s.words) →
    fmtSections E pre (ps.map (·.map E.rk)) p' ss' = fmtSections E pre ps p ss
  | pre, ps, p, p', hp, [], ss', h, hps, cp, cs => by have h : ss' = [] := h; subst h; rfl
  | pre, ps, p, p', hp, s :: ss, ss', h, hps, cp, cs => by
    obtain ⟨s', rest', rfl, h1, h2⟩ := h
    have c1 := cs s (by simp)
    rw [fmtSections, fmtSections]
    rw [blankBetween_norm hp h1 cp c1, fmtSection_norm hE _ ps h1 hps c1]
    have e : s'.header :: ps.map (·.map E.rk) = (s.header :: ps).map (·.map E.rk) := by
      rw [List.map_cons, h1.2.2.1]
    rw [e, fmtSections_norm hE _ (s.header :: ps) h1 ss h2 (by
      intro q hq
      rcases List.mem_cons.mp hq with rfl | hq
      · exact calm_header c1
      · exact hps q hq) c1 (fun x hx => cs x (by simp [hx]))]

theorem fmtDoc_norm {E : Env} (hE : E.Still) {doc doc' : Doc} (h : NormD E doc doc') (hc : CalmL E doc.words) :
    fmtDoc E doc' = fmtDoc E doc := by
  obtain ⟨h1, h2, h3⟩ := h
  have hb : CalmL E doc.body.words := CalmL.l hc
  have hss : ∀ s ∈ doc.sections, CalmL E s.words := fun s hs w hw =>
    hc w (by unfold Doc.words; exact List.mem_append_right _ (List.mem_flatten.mpr ⟨_, List.mem_map_of_mem hs, hw⟩))
  unfold fmtDoc
  rw [fmtPairs_norm hE [] 0 false none doc.body h1 nofun hb]
  cases hd : doc.sections with
  | nil =>
    rw [hd] at h2
    have h2 : doc'.sections = [] := h2
    rw [h2]
  | cons s ss =>
    rw [hd] at h2 h3 hss
    obtain ⟨s', rest', e, hs, hr⟩ := h2
    rw [e] at h3
    rw [e]
    have hsep : E.rootSeparator doc'.body s' = E.rootSeparator doc.body s := by
      unfold Env.rootSeparator
      rw [normP_isEmpty h1, normP_noItem _ h1]
      cases he : doc.body.isEmpty with
      | true => rfl
      | false =>
        cases hn : doc.body.noItem with
        | false => rfl
        | true =>
          simp only [Bool.false_eq_true, if_false, if_true]
          rw [h3 he hn s (by simp) s' (by simp), Nat.min_assoc, Nat.min_self]
    have c1 := hss s (by simp)
    simp only []
    have e0 := fmtSection_norm hE (fmtPairs E [] 0 false none none doc.body ++ E.rootSeparator doc.body s) [] hs nofun c1
    rw [List.map_nil] at e0
    rw [hsep, e0]
    have e1 : [s'.header] = [s.header].map (·.map E.rk) := by rw [List.map_cons, hs.2.2.1, List.map_nil]
    rw [e1, fmtSections_norm hE _ [s.header] hs ss hr (by
      intro q hq
      rw [List.mem_singleton.mp hq]
      exact calm_header c1) c1 (fun x hx => hss x (by simp [hx]))]

theorem formatDoc_norm {E : Env} (hE : E.Still) {doc doc' : Doc} (h : NormD E doc doc') (hc : CalmL E doc.words) :
    formatDoc E doc' = formatDoc E doc := by
  unfold formatDoc
  rw [fmtDoc_norm hE h hc]

end Tombi.Formatter
