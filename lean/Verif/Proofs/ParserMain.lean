import Verif.Proofs.ParserLoops
/-! The recursive parse functions: they terminate without panicking, make progress, and produce
balanced events of bounded height. -/
namespace Tombi
open SyntaxKind

theorem Peek.det {f : Nat → SyntaxKind} {i n n' : Nat} (h : Peek f i n) (h' : Peek f i n') : n = n' := by
  induction h with
  | lb h _ ih =>
    cases h' with
    | lb _ h2 => exact ih h2
    | com h2 _ _ _ => rw [h] at h2; cases h2
    | stop h2 _ => exact absurd h h2
  | com a b c _ ih =>
    cases h' with
    | lb h2 _ => rw [a] at h2; cases h2
    | com _ _ _ h2 => exact ih h2
    | stop _ h2 => exact absurd ⟨a, b, c⟩ h2
  | stop a b =>
    cases h' with
    | lb h2 _ => exact absurd h2 a
    | com h1 h2 h3 _ => exact absurd ⟨h1, h2, h3⟩ b
    | stop _ _ => rfl

/-- where a section of a document ends: no dangling comments, and `[` or the end is next -/
def AtSection (f : Nat → SyntaxKind) : Prop :=
  NoDangling f ∧ ∃ n, Peek f 0 n ∧ (f n = BRACKET_START ∨ f n = EOF)

/-- neither at a line break nor at the end -/
def Mid (f : Nat → SyntaxKind) : Prop := f 0 ≠ LINE_BREAK ∧ f 0 ≠ EOF

theorem Inv.nth_ne_double {p : Parser} (hi : Inv p) (n : Nat) : p.nth n ≠ DOUBLE_BRACKET_START := by
  rw [Parser.nth_eq]
  cases h : (sig p.rest)[n]? with
  | none => simp [Token.eof]
  | some t =>
    have h1 := List.mem_of_getElem? h
    have h2 : t ∈ p.input := List.mem_of_mem_drop (List.mem_filter.mp h1).1
    simpa using (hi.static.kinds t h2).1

namespace PM

def Pre : NT → Parser → Prop
  | .value, p => Mid p.nth ∨ ∃ n, Peek p.nth 0 n ∧ valueFirst (p.nth n)
  | .array, p => ∃ n, Peek p.nth 0 n ∧ p.nth n = BRACKET_START
  | .inlineTable, p => ∃ n, Peek p.nth 0 n ∧ p.nth n = BRACE_START
  | .valueGroup, p | .valueGroupLoop, p => Mid p.nth ∨ ∃ n, Peek p.nth 0 n ∧ valueFirst (p.nth n)
  | .commaGroup, p | .commaGroupLoop, p | .keyValue, p | .keyValueGroup, p | .keyValueGroupLoop, p =>
    Mid p.nth ∨ ∃ n, Peek p.nth 0 n ∧ keyFirst (p.nth n)
  | .table, p => ∃ n, Peek p.nth 0 n ∧ p.nth n = BRACKET_START
  | .arrayOfTable, p => ∃ n, Peek p.nth 0 n ∧ p.nthAt n DOUBLE_BRACKET_START = true
  | .rootLoop, p => AtSection p.nth
  | .arrayLoop, _ | .inlineTableLoop, _ | .sectionLoop, _ => True

def Post : NT → Parser → Parser → Nat → Nat → Prop
  | .value, _, _, j, e => 1 ≤ j ∧ e + 3 ≤ 8 * j
  | .array, _, _, j, e | .inlineTable, _, _, j, e => 1 ≤ j ∧ e + 3 ≤ 8 * j
  | .keyValue, _, _, j, e => 1 ≤ j ∧ e ≤ 8 * j
  | .valueGroup, p, _, j, e | .valueGroupLoop, p, _, j, e | .commaGroup, p, _, j, e
  | .commaGroupLoop, p, _, j, e | .keyValueGroup, p, _, j, e | .keyValueGroupLoop, p, _, j, e =>
    (Mid p.nth → 1 ≤ j) ∧ e ≤ 8 * j
  | .arrayLoop, _, _, j, e | .inlineTableLoop, _, _, j, e => e ≤ 8 * j
  | .sectionLoop, _, p', j, e => e ≤ 8 * j ∧ AtSection p'.nth
  | .table, _, p', j, e | .arrayOfTable, _, p', j, e => 1 ≤ j ∧ e ≤ 8 * j ∧ AtSection p'.nth
  | .rootLoop, _, p', j, e => e ≤ 8 * j ∧ p'.nth 0 = EOF

def rank : NT → Nat
  | .array | .inlineTable | .table | .arrayOfTable => 1
  | .value | .rootLoop => 2
  | .keyValue => 3
  | .valueGroupLoop | .commaGroupLoop | .keyValueGroupLoop => 4
  | .valueGroup | .commaGroup | .keyValueGroup => 5
  | .arrayLoop | .inlineTableLoop | .sectionLoop => 6

/-- height of the nodes produced with `d` levels of nesting left -/
def hOf (d : Nat) : NT → Nat
  | .value => 3 * d + 3
  | .valueGroupLoop | .commaGroupLoop | .keyValueGroupLoop | .keyValue => 3 * d + 4
  | .valueGroup | .commaGroup | .keyValueGroup | .arrayLoop | .inlineTableLoop | .sectionLoop => 3 * d + 5
  | .array | .inlineTable | .table | .arrayOfTable | .rootLoop => 3 * d + 6

def nOf (d : Nat) : NT → Nat
  | .array | .inlineTable => d + 1
  | _ => d

/-- the claim about one parse function -/
def Claim (m : PM Unit) (nt : NT) (p : Parser) : Prop :=
  wp m (fun _ p' => ∃ j e, Ran (hOf (128 - p.depth) nt) (nOf (128 - p.depth) nt) j e p p' ∧
    Post nt p p' j e) p

/-- the claim about the calls made from `nt` at `p` -/
def Rec (rec : NT → PM Unit) (b : Nat) : Prop :=
  ∀ nt p, Inv p → 8 * p.rem + rank nt < b → Pre nt p → Claim (rec nt) nt p

theorem Ran.depth_eq {h n j e : Nat} {p p' : Parser} (hr : Ran h n j e p p') : 128 - p'.depth = 128 - p.depth := by
  rw [hr.depth]

/-- call `nt` after a run -/
theorem call {rec : NT → PM Unit} {b : Nat} (hrec : Rec rec b) (nt : NT) {p p' : Parser} {h n j e : Nat}
    (hr : Ran h n j e p p') (hb : 8 * p.rem + rank nt < b + 8 * j) (hpre : Pre nt p') :
    wp (rec nt) (fun _ p'' => ∃ j' e', Ran (hOf (128 - p.depth) nt) (nOf (128 - p.depth) nt) j' e' p' p'' ∧
      Post nt p' p'' j' e') p' := by
  have h1 := hr.rem
  have := hrec nt p' hr.inv (by omega) hpre
  unfold Claim at this
  rwa [hr.depth] at this

theorem nested_spec {inner : PM Unit} {p : Parser} (hi : Inv p) {h n : Nat} {Q : Nat → Nat → Prop}
    (hinner : p.depth < 128 → wp inner (fun _ p' => ∃ j e, Ran h n j e { p with depth := p.depth + 1 } p' ∧ Q j e)
      { p with depth := p.depth + 1 })
    (hskip : wp skipTooDeepValue (fun _ p' => ∃ j e, Ran h n j e p p' ∧ Q j e) p) :
    wp (nested inner) (fun _ p' => ∃ j e, Ran h n j e p p' ∧ Q j e) p := by
  refine wp.bind (wp.read ?_)
  by_cases hd : p.depth ≥ maxRecursionDepth
  · rw [if_pos hd]; exact hskip
  · rw [if_neg hd]
    have hd' : p.depth < 128 := by simpa [maxRecursionDepth] using hd
    refine wp.bind (wp.modify ?_)
    refine wp.seq (hinner hd') ?_
    rintro _ p2 ⟨j, e, hr, hq⟩
    refine wp.bind (wp.read ?_)
    have h2 : p2.depth = p.depth + 1 := hr.depth
    rw [if_neg (by omega)]
    refine wp.modify ?_
    refine ⟨j, e, ?_, hq⟩
    refine ⟨hr.source, hr.input, by simp [h2], ⟨hr.inv.static, hr.inv.pos, ?_, hr.inv.cut, hr.inv.lag⟩, hr.adv, hr.out⟩
    have := hi.depth
    simp [h2]; omega

section
variable (G : Segmenter) {rec : NT → PM Unit} {p : Parser} (hi : Inv p)

theorem value_claim (hrec : Rec rec (8 * p.rem + rank .value)) (hi : Inv p) (hpre : Pre .value p) :
    Claim (value G rec) .value p := by
  unfold Claim
  refine wp.seq (peek_spec hi) ?_
  rintro n p' ⟨rfl, hp⟩
  refine wp.bind (wp.read ?_)
  have lit : p'.nth n ∈ [BASIC_STRING, MULTI_LINE_BASIC_STRING,
    LITERAL_STRING, MULTI_LINE_LITERAL_STRING, INTEGER_DEC, INTEGER_BIN, INTEGER_OCT, INTEGER_HEX,
    FLOAT, BOOLEAN, OFFSET_DATE_TIME, LOCAL_DATE_TIME, LOCAL_DATE, LOCAL_TIME] →
      wp literalValue (fun _ p'' => ∃ j e, Ran (hOf (128 - p'.depth) .value) (nOf (128 - p'.depth) .value) j e p' p'' ∧
        Post .value p' p'' j e) p' := by
    intro hk
    have h : p'.nth n ≠ EOF ∧ rawOf (p'.nth n) = 1 ∧ p'.nth n ≠ COMMENT ∧ p'.nth n ≠ TOMBSTONE ∧
        nestOf (p'.nth n) = 0 := by
      generalize p'.nth n = k at hk
      revert hk
      cases k <;> decide
    refine (literalValue_spec hi hp rfl h.1 h.2.1 h.2.2.1 h.2.2.2.1 h.2.2.2.2).mono ?_
    rintro _ p2 ⟨j, h1, h2⟩
    exact ⟨j, 0, h1.mono (by simp [hOf]) (by simp), h2, by omega⟩
  have inv : ¬ valueFirst (p'.nth n) →
      wp (invalidValue n) (fun _ p'' => ∃ j e, Ran (hOf (128 - p'.depth) .value) (nOf (128 - p'.depth) .value) j e p' p'' ∧
        Post .value p' p'' j e) p' := by
    intro hv
    have hm : Mid p'.nth := by
      rcases hpre with h | ⟨n', h1, h2⟩
      · exact h
      · rw [h1.det hp] at h2; exact absurd h2 hv
    refine (invalidValue_spec hi hp hm).mono ?_
    rintro _ p2 ⟨j, h1, h2⟩
    exact ⟨j, 1, h1.mono (by simp [hOf]) (by simp), h2, by omega⟩
  have nest : ∀ nt, (nt = .array ∧ p'.nth n = BRACKET_START) ∨ (nt = .inlineTable ∧ p'.nth n = BRACE_START) →
      wp (nested (rec nt)) (fun _ p'' => ∃ j e, Ran (hOf (128 - p'.depth) .value) (nOf (128 - p'.depth) .value) j e p' p'' ∧
        Post .value p' p'' j e) p' := by
    intro nt hnt
    refine nested_spec (Q := fun j e => 1 ≤ j ∧ e + 3 ≤ 8 * j) hi ?_ ?_
    · intro hd
      have hi2 : Inv { p' with depth := p'.depth + 1 } :=
        ⟨hi.static, hi.pos, by simp; omega, hi.cut, hi.lag⟩
      have hpre2 : Pre nt { p' with depth := p'.depth + 1 } := by
        rcases hnt with ⟨rfl, h⟩ | ⟨rfl, h⟩
        · exact ⟨n, hp, h⟩
        · exact ⟨n, hp, h⟩
      refine (hrec nt { p' with depth := p'.depth + 1 } hi2 ?_ hpre2).mono ?_
      · have : Parser.rem { p' with depth := p'.depth + 1 } = p'.rem := rfl
        rw [this]
        rcases hnt with ⟨rfl, h⟩ | ⟨rfl, h⟩ <;> simp [rank]
      · rintro _ p2 ⟨j, e, h1, h2⟩
        refine ⟨j, e, h1.mono ?_ ?_, ?_⟩
        · rcases hnt with ⟨rfl, h⟩ | ⟨rfl, h⟩ <;> simp [hOf] <;> omega
        · rcases hnt with ⟨rfl, h⟩ | ⟨rfl, h⟩ <;> simp [nOf] <;> omega
        · rcases hnt with ⟨rfl, h⟩ | ⟨rfl, h⟩ <;> exact h2
    · refine (skipTooDeepValue_spec hi hp (by rcases hnt with ⟨_, h⟩ | ⟨_, h⟩ <;> simp [h])).mono ?_
      rintro _ p2 ⟨j, h1, h2⟩
      exact ⟨j, 1, h1.mono (by simp [hOf]) (by simp), h2, by omega⟩
  generalize hk : p'.nth n = k at *
  cases k
  case BRACKET_START => exact nest .array (Or.inl ⟨rfl, rfl⟩)
  case BRACE_START => exact nest .inlineTable (Or.inr ⟨rfl, rfl⟩)
  case BARE_KEY =>
    refine (bareKeyValue_spec G hi hp hk).mono ?_
    rintro _ p2 ⟨j, e, h1, h2, h3⟩
    exact ⟨j, e, h1.mono (by simp [hOf]) (by simp), h2, by omega⟩
  all_goals first
    | exact lit (by decide)
    | exact inv (by rw [valueFirst_iff]; decide)

theorem array_claim (hrec : Rec rec (8 * p.rem + rank .array)) (hi : Inv p) (hpre : Pre .array p) :
    Claim (array rec) .array p := by
  obtain ⟨n, hp, hk⟩ := hpre
  refine wp.seq (start_spec hi) ?_
  rintro m p1 ⟨hs, hi1⟩
  refine wp.seq (leadingComments_peek hi1 (n := n) (by rw [hs.same.1]; exact hp)
    (by rw [hs.same.1, hk]; decide)) ?_
  intro _ p2 h2
  have hat : p2.nthAt 0 BRACKET_START = true := by
    rw [nthAt_plain rfl, h2.nth, hs.same.1]; simp [hk]
  refine wp.bind (wp.read ?_)
  refine wp.bind ?_
  rw [show p2.atKind BRACKET_START = true from hat]
  refine ⟨(), p2, rfl, ?_⟩
  refine wp.seq (eat_spec h2.inv (by decide)) ?_
  rintro b p3 ⟨hb, h3⟩
  rw [hat] at hb
  subst hb
  refine wp.seq (trailingComment_spec h3.inv) ?_
  rintro _ p4 ⟨j4, h4, -, -⟩
  have h14 := (h2.trans h3).trans h4
  simp only [if_true, show rawOf BRACKET_START = 1 from rfl] at h14
  rw [← hs.same.2.1] at hrec
  refine wp.seq (call hrec .arrayLoop h14 (by simp [rank]; omega) trivial) ?_
  rintro _ p5 ⟨j5, e5, h5, hpost⟩
  refine wp.seq (eat_spec h5.inv (by decide)) ?_
  rintro b p6 ⟨hb6, h6⟩
  have h16 := ((h14.mono (Nat.zero_le _) (Nat.zero_le _)).trans h5).trans (h6.mono (Nat.zero_le _) (Nat.zero_le _))
  have fin : ∀ e7 p7, e7 ≤ 1 → Ran 0 0 0 e7 p6 p7 →
      wp (do trailingComment; complete m ARRAY) (fun _ p' => ∃ j e,
        Ran (hOf (128 - p.depth) .array) (nOf (128 - p.depth) .array) j e p p' ∧ Post .array p p' j e) p7 := by
    intro e7 p7 he7 h7
    refine wp.seq (trailingComment_spec h7.inv) ?_
    rintro _ p8 ⟨j8, h8, -, -⟩
    have h18 := (h16.trans (h7.mono (Nat.zero_le _) (Nat.zero_le _))).trans (h8.mono (Nat.zero_le _) (Nat.zero_le _))
    refine (complete_spec hs h18 (k := ARRAY) (by decide)).mono ?_
    intro _ p9 h9
    rw [hs.same.2.2.1] at h9
    exact ⟨_, _, h9.mono (by simp [hOf]) (by simp [nOf, nestOf]), by omega, by simp only [Post] at hpost; omega⟩
  cases b with
  | true => exact fin 0 p6 (by omega) (Ran.refl h6.inv _ _)
  | false =>
    refine wp.seq (currentRange_spec h6.inv) ?_
    rintro r p7 rfl
    refine wp.seq (error_spec h6.inv _ _) ?_
    intro _ p8 h8
    exact fin 1 p8 (by omega) h8

theorem inlineTable_claim (hrec : Rec rec (8 * p.rem + rank .inlineTable)) (hi : Inv p)
    (hpre : Pre .inlineTable p) : Claim (inlineTable rec) .inlineTable p := by
  obtain ⟨n, hp, hk⟩ := hpre
  refine wp.seq (start_spec hi) ?_
  rintro m p1 ⟨hs, hi1⟩
  refine wp.seq (leadingComments_peek hi1 (n := n) (by rw [hs.same.1]; exact hp)
    (by rw [hs.same.1, hk]; decide)) ?_
  intro _ p2 h2
  have hat : p2.nthAt 0 BRACE_START = true := by
    rw [nthAt_plain rfl, h2.nth, hs.same.1]; simp [hk]
  refine wp.bind (wp.read ?_)
  refine wp.bind ?_
  rw [show p2.atKind BRACE_START = true from hat]
  refine ⟨(), p2, rfl, ?_⟩
  refine wp.seq (eat_spec h2.inv (by decide)) ?_
  rintro b p3 ⟨hb, h3⟩
  rw [hat] at hb
  subst hb
  refine wp.seq (trailingComment_spec h3.inv) ?_
  rintro _ p4 ⟨j4, h4, -, -⟩
  have h14 := (h2.trans h3).trans h4
  simp only [if_true, show rawOf BRACE_START = 1 from rfl] at h14
  rw [← hs.same.2.1] at hrec
  refine wp.seq (call hrec .inlineTableLoop h14 (by simp [rank]; omega) trivial) ?_
  rintro _ p5 ⟨j5, e5, h5, hpost⟩
  refine wp.seq (eat_spec h5.inv (by decide)) ?_
  rintro b p6 ⟨hb6, h6⟩
  have h16 := ((h14.mono (Nat.zero_le _) (Nat.zero_le _)).trans h5).trans (h6.mono (Nat.zero_le _) (Nat.zero_le _))
  have fin : ∀ e7 p7, e7 ≤ 1 → Ran 0 0 0 e7 p6 p7 →
      wp (do trailingComment; complete m INLINE_TABLE) (fun _ p' => ∃ j e,
        Ran (hOf (128 - p.depth) .inlineTable) (nOf (128 - p.depth) .inlineTable) j e p p' ∧
          Post .inlineTable p p' j e) p7 := by
    intro e7 p7 he7 h7
    refine wp.seq (trailingComment_spec h7.inv) ?_
    rintro _ p8 ⟨j8, h8, -, -⟩
    have h18 := (h16.trans (h7.mono (Nat.zero_le _) (Nat.zero_le _))).trans (h8.mono (Nat.zero_le _) (Nat.zero_le _))
    refine (complete_spec hs h18 (k := INLINE_TABLE) (by decide)).mono ?_
    intro _ p9 h9
    rw [hs.same.2.2.1] at h9
    exact ⟨_, _, h9.mono (by simp [hOf]) (by simp [nOf, nestOf]), by omega, by simp only [Post] at hpost; omega⟩
  cases b with
  | true => exact fin 0 p6 (by omega) (Ran.refl h6.inv _ _)
  | false =>
    refine wp.seq (currentRange_spec h6.inv) ?_
    rintro r p7 rfl
    refine wp.seq (error_spec h6.inv _ _) ?_
    intro _ p8 h8
    exact fin 1 p8 (by omega) h8

/-- after the dangling comments, if what follows the leading comments is no end -/
theorem Mid.of_noDangling {f : Nat → SyntaxKind} {n : Nat} (h : NoDangling f) (hp : Peek f 0 n)
    (hn : f n ≠ EOF) : Mid f := by
  refine ⟨h.1, fun he => ?_⟩
  have := hp.zero h.1 (by rw [he]; decide)
  rw [this] at hn
  exact hn he

theorem arrayLoop_claim (hrec : Rec rec (8 * p.rem + rank .arrayLoop)) (hi : Inv p) :
    Claim (arrayLoop rec) .arrayLoop p := by
  refine wp.seq (eatLineBreaks_spec hi) ?_
  rintro _ p1 ⟨j1, h1, -, -⟩
  refine wp.seq (danglingCommentGroups_spec h1.inv) ?_
  rintro _ p2 ⟨j2, h2, hnd⟩
  refine wp.seq (peek_spec h2.inv) ?_
  rintro n p2 ⟨rfl, hp⟩
  have h12 := (h1.mono (h' := 1) (n' := 0) (by omega) (by omega)).trans h2
  refine wp.bind (wp.read ?_)
  by_cases hend : TS_ARRAY_END.contains (p2.nth n) = true
  · rw [show p2.nthAtTs n TS_ARRAY_END = true from hend]
    exact wp.pure ⟨_, _, h12.mono (by simp [hOf]) (by omega), by simp [Post]⟩
  · rw [show p2.nthAtTs n TS_ARRAY_END = false from Bool.eq_false_iff.mpr hend]
    have hm : Mid p2.nth := Mid.of_noDangling hnd hp fun h => hend (ts_arrayEnd.mpr (Or.inr h))
    refine wp.seq (call hrec .valueGroup h12 (by simp [rank]; omega) (Or.inl hm)) ?_
    rintro _ p3 ⟨j3, e3, h3, hpost⟩
    have hj := hpost.1 hm
    have h13 := (h12.mono (h' := hOf (128 - p.depth) .valueGroup) (n' := nOf (128 - p.depth) .valueGroup)
      (by simp [hOf]) (by omega)).trans h3
    refine (call hrec .arrayLoop h13 (by simp [rank]; omega) trivial).mono ?_
    rintro _ p4 ⟨j4, e4, h4, hpost4⟩
    have h2' := hpost.2
    simp only [Post] at hpost4 ⊢
    exact ⟨_, _, h13.trans h4, by omega⟩

theorem inlineTableLoop_claim (hrec : Rec rec (8 * p.rem + rank .inlineTableLoop)) (hi : Inv p) :
    Claim (inlineTableLoop rec) .inlineTableLoop p := by
  refine wp.seq (eatLineBreaks_spec hi) ?_
  rintro _ p1 ⟨j1, h1, -, -⟩
  refine wp.seq (danglingCommentGroups_spec h1.inv) ?_
  rintro _ p2 ⟨j2, h2, hnd⟩
  refine wp.seq (peek_spec h2.inv) ?_
  rintro n p2 ⟨rfl, hp⟩
  have h12 := (h1.mono (h' := 1) (n' := 0) (by omega) (by omega)).trans h2
  refine wp.bind (wp.read ?_)
  by_cases hend : TS_INLINE_TABLE_END.contains (p2.nth n) = true
  · rw [show p2.nthAtTs n TS_INLINE_TABLE_END = true from hend]
    exact wp.pure ⟨_, _, h12.mono (by simp [hOf]) (by omega), by simp [Post]⟩
  · rw [show p2.nthAtTs n TS_INLINE_TABLE_END = false from Bool.eq_false_iff.mpr hend]
    have hm : Mid p2.nth := Mid.of_noDangling hnd hp fun h => hend (ts_inlineTableEnd.mpr (Or.inr h))
    refine wp.seq (call hrec .commaGroup h12 (by simp [rank]; omega) (Or.inl hm)) ?_
    rintro _ p3 ⟨j3, e3, h3, hpost⟩
    have hj := hpost.1 hm
    have h13 := (h12.mono (h' := hOf (128 - p.depth) .commaGroup) (n' := nOf (128 - p.depth) .commaGroup)
      (by simp [hOf]) (by omega)).trans h3
    refine (call hrec .inlineTableLoop h13 (by simp [rank]; omega) trivial).mono ?_
    rintro _ p4 ⟨j4, e4, h4, hpost4⟩
    have h2' := hpost.2
    simp only [Post] at hpost4 ⊢
    exact ⟨_, _, h13.trans h4, by omega⟩

theorem valueGroup_claim (hrec : Rec rec (8 * p.rem + rank .valueGroup)) (hi : Inv p)
    (hpre : Pre .valueGroup p) : Claim (valueGroup rec) .valueGroup p := by
  refine wp.seq (start_spec hi) ?_
  rintro m p1 ⟨hs, hi1⟩
  rw [← hs.same.2.1] at hrec
  refine wp.seq (hrec .valueGroupLoop p1 hi1 (by simp [rank]) (by simp only [Pre, hs.same.1]; exact hpre)) ?_
  rintro _ p2 ⟨j, e, h1, h2⟩
  refine (complete_spec hs h1 (by decide)).mono ?_
  intro _ p3 h3
  rw [hs.same.2.2.1] at h3
  simp only [Post, hs.same.1] at h2
  exact ⟨j, e, h3.mono (by simp [hOf]) (by simp [nOf, nestOf]), h2⟩

theorem commaGroup_claim (hrec : Rec rec (8 * p.rem + rank .commaGroup)) (hi : Inv p)
    (hpre : Pre .commaGroup p) : Claim (commaGroup rec) .commaGroup p := by
  refine wp.seq (start_spec hi) ?_
  rintro m p1 ⟨hs, hi1⟩
  rw [← hs.same.2.1] at hrec
  refine wp.seq (hrec .commaGroupLoop p1 hi1 (by simp [rank]) (by simp only [Pre, hs.same.1]; exact hpre)) ?_
  rintro _ p2 ⟨j, e, h1, h2⟩
  refine (complete_spec hs h1 (by decide)).mono ?_
  intro _ p3 h3
  rw [hs.same.2.2.1] at h3
  simp only [Post, hs.same.1] at h2
  exact ⟨j, e, h3.mono (by simp [hOf]) (by simp [nOf, nestOf]), h2⟩

theorem keyValueGroup_claim (hrec : Rec rec (8 * p.rem + rank .keyValueGroup)) (hi : Inv p)
    (hpre : Pre .keyValueGroup p) : Claim (keyValueGroup rec) .keyValueGroup p := by
  refine wp.seq (start_spec hi) ?_
  rintro m p1 ⟨hs, hi1⟩
  rw [← hs.same.2.1] at hrec
  refine wp.seq (hrec .keyValueGroupLoop p1 hi1 (by simp [rank]) (by simp only [Pre, hs.same.1]; exact hpre)) ?_
  rintro _ p2 ⟨j, e, h1, h2⟩
  refine (complete_spec hs h1 (by decide)).mono ?_
  intro _ p3 h3
  rw [hs.same.2.2.1] at h3
  simp only [Post, hs.same.1] at h2
  exact ⟨j, e, h3.mono (by simp [hOf]) (by simp [nOf, nestOf]), h2⟩

theorem separator_mid {p : Parser} (h : (p.atTs TS_LINE_END && p.nthAtTs 1 TS_LINE_END) = true) :
    ¬ Mid p.nth := by
  simp only [Bool.and_eq_true] at h
  have := ts_lineEnd.mp h.1
  rintro ⟨h1, h2⟩
  rcases this with h | h
  · exact h1 h
  · exact h2 h

theorem valueGroupLoop_claim (hrec : Rec rec (8 * p.rem + rank .valueGroupLoop)) (hi : Inv p)
    (hpre : Pre .valueGroupLoop p) : Claim (valueGroupLoop rec) .valueGroupLoop p := by
  refine wp.bind (wp.read ?_)
  by_cases hsep : (p.atTs TS_LINE_END && p.nthAtTs 1 TS_LINE_END) = true
  · rw [hsep]
    exact wp.pure ⟨0, 0, Ran.refl hi _ _, fun hm => absurd hm (separator_mid hsep), by omega⟩
  rw [Bool.eq_false_iff.mpr hsep]
  refine wp.seq (hrec .value p hi (by simp [rank]) hpre) ?_
  rintro _ p1 ⟨j1, e1, h1, hj1, he1⟩
  have h1' := h1.mono (h' := hOf (128 - p.depth) .valueGroupLoop) (n' := nOf (128 - p.depth) .valueGroupLoop)
    (by simp [hOf]) (by simp [nOf])
  refine wp.seq (peek_spec h1.inv) ?_
  rintro n p1 ⟨rfl, hp⟩
  have tail : ∀ j p2, Ran 1 0 j 0 p1 p2 → wp (do
      let n ← peekLeadingComments
      if !(← read (·.nthAtTs n TS_VALUE_FIRST)) then return ()
      rec .valueGroupLoop) (fun _ p' => ∃ j e, Ran (hOf (128 - p.depth) .valueGroupLoop)
        (nOf (128 - p.depth) .valueGroupLoop) j e p p' ∧ Post .valueGroupLoop p p' j e) p2 := by
    intro j p2 h2
    have h12 := h1'.trans (h2.mono (by simp [hOf]) (by omega))
    refine wp.seq (peek_spec h2.inv) ?_
    rintro n p2 ⟨rfl, hp⟩
    refine wp.bind (wp.read ?_)
    by_cases hv : valueFirst (p2.nth n)
    · rw [show p2.nthAtTs n TS_VALUE_FIRST = true from hv]
      refine (call hrec .valueGroupLoop h12 (by simp; omega) (Or.inr ⟨n, hp, hv⟩)).mono ?_
      rintro _ p4 ⟨j4, e4, h4, hpost4⟩
      have := hpost4.2
      exact ⟨_, _, h12.trans h4, by intro; omega, by omega⟩
    · rw [show p2.nthAtTs n TS_VALUE_FIRST = false from Bool.eq_false_iff.mpr hv]
      exact wp.pure ⟨_, _, h12, by intro; omega, by omega⟩
  refine wp.bind (wp.read ?_)
  by_cases hc : p1.nthAt n COMMA = true
  · rw [hc]
    refine wp.bind ?_
    rw [nthAt_plain rfl] at hc
    refine (comma_spec h1.inv hp (by simpa using hc)).mono ?_
    rintro _ p2 ⟨j, h2, _⟩
    exact tail j p2 h2
  · rw [Bool.eq_false_iff.mpr hc]
    refine wp.bind (wp.read ?_)
    by_cases he : p1.nthAtTs n TS_ARRAY_END = true
    · rw [he]
      exact wp.pure ⟨_, _, h1', fun _ => hj1, by omega⟩
    · rw [Bool.eq_false_iff.mpr he]
      exact tail 0 p1 (Ran.refl h1.inv _ _)

theorem commaGroupLoop_claim (hrec : Rec rec (8 * p.rem + rank .commaGroupLoop)) (hi : Inv p)
    (hpre : Pre .commaGroupLoop p) : Claim (commaGroupLoop rec) .commaGroupLoop p := by
  refine wp.bind (wp.read ?_)
  by_cases hsep : (p.atTs TS_LINE_END && p.nthAtTs 1 TS_LINE_END) = true
  · rw [hsep]
    exact wp.pure ⟨0, 0, Ran.refl hi _ _, fun hm => absurd hm (separator_mid hsep), by omega⟩
  rw [Bool.eq_false_iff.mpr hsep]
  refine wp.seq (hrec .keyValue p hi (by simp [rank]) hpre) ?_
  rintro _ p1 ⟨j1, e1, h1, hj1, he1⟩
  have h1' := h1.mono (h' := hOf (128 - p.depth) .commaGroupLoop) (n' := nOf (128 - p.depth) .commaGroupLoop)
    (by simp [hOf]) (by simp [nOf])
  refine wp.seq (peek_spec h1.inv) ?_
  rintro n p1 ⟨rfl, hp⟩
  have tail : ∀ j p2, Ran 1 0 j 0 p1 p2 → wp (do
      let n ← peekLeadingComments
      if !(← read (·.nthAtTs n TS_KEY_FIRST)) then return ()
      rec .commaGroupLoop) (fun _ p' => ∃ j e, Ran (hOf (128 - p.depth) .commaGroupLoop)
        (nOf (128 - p.depth) .commaGroupLoop) j e p p' ∧ Post .commaGroupLoop p p' j e) p2 := by
    intro j p2 h2
    have h12 := h1'.trans (h2.mono (by simp [hOf]) (by omega))
    refine wp.seq (peek_spec h2.inv) ?_
    rintro n p2 ⟨rfl, hp⟩
    refine wp.bind (wp.read ?_)
    by_cases hv : keyFirst (p2.nth n)
    · rw [show p2.nthAtTs n TS_KEY_FIRST = true from hv]
      refine (call hrec .commaGroupLoop h12 (by simp; omega) (Or.inr ⟨n, hp, hv⟩)).mono ?_
      rintro _ p4 ⟨j4, e4, h4, hpost4⟩
      have := hpost4.2
      exact ⟨_, _, h12.trans h4, by intro; omega, by omega⟩
    · rw [show p2.nthAtTs n TS_KEY_FIRST = false from Bool.eq_false_iff.mpr hv]
      exact wp.pure ⟨_, _, h12, by intro; omega, by omega⟩
  refine wp.bind (wp.read ?_)
  by_cases hc : p1.nthAt n COMMA = true
  · rw [hc]
    refine wp.bind ?_
    rw [nthAt_plain rfl] at hc
    refine (comma_spec h1.inv hp (by simpa using hc)).mono ?_
    rintro _ p2 ⟨j, h2, _⟩
    exact tail j p2 h2
  · rw [Bool.eq_false_iff.mpr hc]
    refine wp.bind (wp.read ?_)
    by_cases he : p1.nthAtTs n TS_INLINE_TABLE_END = true
    · rw [he]
      exact wp.pure ⟨_, _, h1', fun _ => hj1, by omega⟩
    · rw [Bool.eq_false_iff.mpr he]
      exact tail 0 p1 (Ran.refl h1.inv _ _)

theorem keyValueGroupLoop_claim (hrec : Rec rec (8 * p.rem + rank .keyValueGroupLoop)) (hi : Inv p)
    (hpre : Pre .keyValueGroupLoop p) : Claim (keyValueGroupLoop rec) .keyValueGroupLoop p := by
  refine wp.bind (wp.read ?_)
  by_cases hsep : (p.atTs TS_LINE_END && p.nthAtTs 1 TS_LINE_END) = true
  · rw [hsep]
    exact wp.pure ⟨0, 0, Ran.refl hi _ _, fun hm => absurd hm (separator_mid hsep), by omega⟩
  rw [Bool.eq_false_iff.mpr hsep]
  refine wp.seq (hrec .keyValue p hi (by simp [rank]) hpre) ?_
  rintro _ p1 ⟨j1, e1, h1, hj1, he1⟩
  have h1' := h1.mono (h' := hOf (128 - p.depth) .keyValueGroupLoop) (n' := nOf (128 - p.depth) .keyValueGroupLoop)
    (by simp [hOf]) (by simp [nOf])
  refine wp.seq (peek_spec h1.inv) ?_
  rintro n p1 ⟨rfl, hp⟩
  have tail : ∀ j p2, Ran 1 0 j 0 p1 p2 → wp (do
      if !(← read (·.atKind LINE_BREAK)) then return ()
      let n ← peekLeadingComments
      if !(← read (·.nthAtTs n TS_KEY_FIRST)) then return ()
      rec .keyValueGroupLoop) (fun _ p' => ∃ j e, Ran (hOf (128 - p.depth) .keyValueGroupLoop)
        (nOf (128 - p.depth) .keyValueGroupLoop) j e p p' ∧ Post .keyValueGroupLoop p p' j e) p2 := by
    intro j p2 h2
    have h12 := h1'.trans (h2.mono (by simp [hOf]) (by omega))
    refine wp.bind (wp.read ?_)
    by_cases hl : p2.atKind LINE_BREAK = true
    · rw [hl]
      refine wp.seq (peek_spec h2.inv) ?_
      rintro n p2 ⟨rfl, hp⟩
      refine wp.bind (wp.read ?_)
      by_cases hv : keyFirst (p2.nth n)
      · rw [show p2.nthAtTs n TS_KEY_FIRST = true from hv]
        refine (call hrec .keyValueGroupLoop h12 (by simp; omega) (Or.inr ⟨n, hp, hv⟩)).mono ?_
        rintro _ p4 ⟨j4, e4, h4, hpost4⟩
        have := hpost4.2
        exact ⟨_, _, h12.trans h4, by intro; omega, by omega⟩
      · rw [show p2.nthAtTs n TS_KEY_FIRST = false from Bool.eq_false_iff.mpr hv]
        exact wp.pure ⟨_, _, h12, by intro; omega, by omega⟩
    · rw [Bool.eq_false_iff.mpr hl]
      exact wp.pure ⟨_, _, h12, by intro; omega, by omega⟩
  refine wp.bind (wp.read ?_)
  by_cases hc : p1.nthAt n COMMA = true
  · rw [hc]
    refine wp.bind ?_
    rw [nthAt_plain rfl] at hc
    refine (comma_spec h1.inv hp (by simpa using hc)).mono ?_
    rintro _ p2 ⟨j, h2, _⟩
    exact tail j p2 h2
  · rw [Bool.eq_false_iff.mpr hc]
    exact tail 0 p1 (Ran.refl h1.inv _ _)

theorem keyValue_claim (hrec : Rec rec (8 * p.rem + rank .keyValue)) (hi : Inv p)
    (hpre : Pre .keyValue p) : Claim (keyValue G rec) .keyValue p := by
  refine wp.seq (start_spec hi) ?_
  rintro m p1 ⟨hs, hi1⟩
  rw [← hs.same.2.1] at hrec
  refine wp.seq (leadingComments_spec hi1) ?_
  rintro _ p2 ⟨j2, h2, h2a, h2b⟩
  refine wp.seq (keys_spec G h2.inv) ?_
  rintro _ p3 ⟨j3, e3, h3, h3e, h3k⟩
  refine wp.seq (eat_spec h3.inv (by decide)) ?_
  rintro b p4 ⟨hb, h4⟩
  -- without any progress so far, the parser is before a token that starts no key
  have stuck : j2 = 0 → j3 = 0 → Mid p2.nth ∧ p2.nth 0 ≠ COMMENT := by
    intro hj2 hj3
    subst hj2 hj3
    have hn : p2.nth = p.nth := by funext i; rw [h2.nth, hs.same.1]; rfl
    rw [hn] at h2b h3k ⊢
    refine ⟨?_, fun h => h2b (Or.inl h)⟩
    rcases hpre with hm | ⟨n, hp, hk⟩
    · exact hm
    · have := hp.zero (fun h => h2b (Or.inr h)) (fun h => h2b (Or.inl h))
      rw [this] at hk
      have := h3k hk
      omega
  have h13 := (h2.mono (h' := 2) (n' := 0) (by omega) (by omega)).trans h3
  -- the value, or an error
  have rest : ∀ j5 e5 p5, Ran 0 0 j5 e5 p3 p5 → j5 + e5 = 1 → wp (do
      if ← read (·.atTs TS_LINE_END) then
        invalidToken
        error .ExpectedValue (← currentRange)
      else if ← read (·.atKind COMMENT) then
        invalidToken
        error .ExpectedValue (← previousRange)
      else rec .value
      trailingComment
      complete m KEY_VALUE) (fun _ p' => ∃ j e, Ran (hOf (128 - p.depth) .keyValue)
        (nOf (128 - p.depth) .keyValue) j e p p' ∧ Post .keyValue p p' j e) p5 := by
    intro j5 e5 p5 h5 hje
    have h15 := h13.trans (h5.mono (by omega) (by omega))
    have fin : ∀ j6 e6 p6, Ran (hOf (128 - p1.depth) .value) (nOf (128 - p1.depth) .value) j6 e6 p5 p6 →
        1 ≤ j2 + j3 + j5 + j6 → e3 + e5 + e6 ≤ 8 * (j2 + j3 + j5 + j6) →
        wp (do trailingComment; complete m KEY_VALUE) (fun _ p' => ∃ j e, Ran (hOf (128 - p.depth) .keyValue)
          (nOf (128 - p.depth) .keyValue) j e p p' ∧ Post .keyValue p p' j e) p6 := by
      intro j6 e6 p6 h6 hj he
      refine wp.seq (trailingComment_spec h6.inv) ?_
      rintro _ p7 ⟨j7, h7, -, -⟩
      have h17 := ((h15.mono (h' := hOf (128 - p1.depth) .value) (n' := nOf (128 - p1.depth) .value)
        (by simp [hOf]) (by omega)).trans h6).trans (h7.mono (Nat.zero_le _) (Nat.zero_le _))
      refine (complete_spec hs h17 (k := KEY_VALUE) (by decide)).mono ?_
      intro _ p8 h8
      rw [hs.same.2.2.1] at h8
      exact ⟨_, _, h8.mono (by simp [hOf]) (by simp [nOf, nestOf]), by omega, by omega⟩
    have hstuck5 : j2 = 0 → j3 = 0 → j5 = 0 → Mid p5.nth ∧ p5.nth 0 ≠ COMMENT := by
      intro a b c
      subst c
      have : p5.nth = p2.nth := by funext i; rw [h5.nth, h3.nth, b]; rfl
      rw [this]; exact stuck a b
    refine wp.bind (wp.read ?_)
    by_cases hle : p5.atTs TS_LINE_END = true
    · rw [hle]
      have hpos : 1 ≤ j2 + j3 + j5 := by
        apply Classical.byContradiction
        intro hz
        have hm := (hstuck5 (by omega) (by omega) (by omega)).1
        rcases ts_lineEnd.mp hle with h | h
        · exact hm.1 h
        · exact hm.2 h
      refine wp.seq (invalidToken_spec h5.inv) ?_
      intro _ p6 h6
      refine wp.seq (currentRange_spec h6.inv) ?_
      rintro r p6 rfl
      refine wp.seq (error_spec h6.inv _ _) ?_
      intro _ p7 h7
      refine fin 0 1 p7 ?_ (by omega) (by omega)
      simpa using (h6.mono (by simp [hOf]) (by omega)).trans (h7.mono (by omega) (by omega))
    · rw [Bool.eq_false_iff.mpr hle]
      refine wp.bind (wp.read ?_)
      by_cases hcm : p5.atKind COMMENT = true
      · rw [hcm]
        have hpos : 1 ≤ j2 + j3 + j5 := by
          apply Classical.byContradiction
          intro hz
          have hm := (hstuck5 (by omega) (by omega) (by omega)).2
          have : p5.nthAt 0 COMMENT = true := hcm
          rw [nthAt_plain rfl] at this
          exact hm (by simpa using this)
        refine wp.seq (invalidToken_spec h5.inv) ?_
        intro _ p6 h6
        refine wp.seq (previousRange_spec h6.inv) ?_
        rintro r p6 rfl
        refine wp.seq (error_spec h6.inv _ _) ?_
        intro _ p7 h7
        refine fin 0 1 p7 ?_ (by omega) (by omega)
        simpa using (h6.mono (by simp [hOf]) (by omega)).trans (h7.mono (by omega) (by omega))
      · rw [Bool.eq_false_iff.mpr hcm]
        have hm : Mid p5.nth := ⟨fun h => hle (ts_lineEnd.mpr (Or.inl h)), fun h => hle (ts_lineEnd.mpr (Or.inr h))⟩
        refine wp.seq (call hrec .value h15 (by simp [rank]; omega) (Or.inl hm)) ?_
        rintro _ p6 ⟨j6, e6, h6, hj6, he6⟩
        exact fin j6 e6 p6 h6 (by omega) (by omega)
  cases b with
  | true => exact rest 1 0 p4 (by simpa [rawOf] using h4) rfl
  | false =>
    refine wp.seq (currentRange_spec h4.inv) ?_
    rintro r p4 rfl
    refine wp.seq (error_spec h4.inv _ _) ?_
    intro _ p5 h5
    exact rest 0 1 p5 (by simpa using h4.trans h5) rfl

theorem sectionLoop_claim (hrec : Rec rec (8 * p.rem + rank .sectionLoop)) (hi : Inv p) :
    Claim (sectionLoop rec) .sectionLoop p := by
  refine wp.seq (eatLineBreaks_spec hi) ?_
  rintro _ p1 ⟨j1, h1, -, -⟩
  refine wp.seq (danglingCommentGroups_spec h1.inv) ?_
  rintro _ p2 ⟨j2, h2, hnd⟩
  refine wp.seq (peek_spec h2.inv) ?_
  rintro n p2 ⟨rfl, hp⟩
  have h12 := (h1.mono (h' := 1) (n' := 0) (by omega) (by omega)).trans h2
  refine wp.bind (wp.read ?_)
  by_cases hend : TS_NEXT_SECTION.contains (p2.nth n) = true
  · rw [show p2.nthAtTs n TS_NEXT_SECTION = true from hend]
    refine wp.pure ⟨_, _, h12.mono (by simp [hOf]) (by omega), by simp, hnd, n, hp, ?_⟩
    rcases ts_nextSection.mp hend with h | h | h
    · exact Or.inl h
    · exact absurd h (h2.inv.nth_ne_double n)
    · exact Or.inr h
  · rw [show p2.nthAtTs n TS_NEXT_SECTION = false from Bool.eq_false_iff.mpr hend]
    have hm : Mid p2.nth := Mid.of_noDangling hnd hp fun h => hend (ts_nextSection.mpr (Or.inr (Or.inr h)))
    refine wp.seq (call hrec .keyValueGroup h12 (by simp [rank]; omega) (Or.inl hm)) ?_
    rintro _ p3 ⟨j3, e3, h3, hpost⟩
    have hj := hpost.1 hm
    have he := hpost.2
    have h13 := (h12.mono (h' := hOf (128 - p.depth) .keyValueGroup) (n' := nOf (128 - p.depth) .keyValueGroup)
      (by simp [hOf]) (by omega)).trans h3
    have tail : ∀ j4 e4 p4, Ran 0 0 j4 e4 p3 p4 → e4 ≤ j4 → wp (rec .sectionLoop) (fun _ p' => ∃ j e,
        Ran (hOf (128 - p.depth) .sectionLoop) (nOf (128 - p.depth) .sectionLoop) j e p p' ∧
          Post .sectionLoop p p' j e) p4 := by
      intro j4 e4 p4 h4 he4
      have h14 := h13.trans (h4.mono (by omega) (by omega))
      refine (call hrec .sectionLoop h14 (by simp [rank]; omega) trivial).mono ?_
      rintro _ p5 ⟨j5, e5, h5, he5, hat⟩
      exact ⟨_, _, h14.trans h5, by omega, hat⟩
    refine wp.bind (wp.read ?_)
    by_cases hle : p3.atTs TS_LINE_END = true
    · rw [hle]
      exact tail 0 0 p3 (Ran.refl h3.inv _ _) (by omega)
    · rw [Bool.eq_false_iff.mpr hle]
      refine wp.seq (invalidLine_spec h3.inv _) ?_
      rintro _ p4 ⟨j4, h4, h4p, -⟩
      exact tail j4 1 p4 h4 (h4p fun h => hle (ts_lineEnd.mpr (Or.inr h)))

/-- the part of a table that `[a]` and `[[a]]` share, after the opening brackets -/
theorem header_spec {m j0 : Nat} {p1 p2 : Parser} {kclose k : SyntaxKind} {err : PErrorKind} {nt : NT}
    (hrec : Rec rec (8 * p.rem + 1)) (hs : Started m p p1) (h0 : Ran 0 0 j0 0 p1 p2)
    (hj0 : 1 ≤ j0) (hclose : kclose ≠ EOF) (hk : k ≠ TOMBSTONE) (hkn : nestOf k = 0)
    (hnt : nt = .table ∨ nt = .arrayOfTable) :
    wp (do
      keys G
      if !(← eat kclose) then invalidLine err
      trailingComment
      if !(← read (·.atTs TS_LINE_END)) then invalidLine .ExpectedLineBreak
      rec .sectionLoop
      complete m k) (fun _ p' => ∃ j e, Ran (hOf (128 - p.depth) nt) (nOf (128 - p.depth) nt) j e p p' ∧
        Post nt p p' j e) p2 := by
  rw [← hs.same.2.1] at hrec
  refine wp.seq (keys_spec G h0.inv) ?_
  rintro _ p3 ⟨j3, e3, h3, h3e, -⟩
  have h13 := (h0.mono (h' := 2) (n' := 0) (by omega) (by omega)).trans h3
  have last : ∀ j4 e4 p4, Ran 2 0 j4 e4 p1 p4 → 1 ≤ j4 → e4 ≤ 8 * j4 → wp (do
      rec .sectionLoop
      complete m k) (fun _ p' => ∃ j e, Ran (hOf (128 - p.depth) nt) (nOf (128 - p.depth) nt) j e p p' ∧
        Post nt p p' j e) p4 := by
    intro j4 e4 p4 h14 hj4 he4
    refine wp.seq (call hrec .sectionLoop h14 (by simp [rank]; omega) trivial) ?_
    rintro _ p5 ⟨j5, e5, h5, he5, hat⟩
    have h15 := (h14.mono (h' := hOf (128 - p1.depth) .sectionLoop) (n' := nOf (128 - p1.depth) .sectionLoop)
      (by simp [hOf]) (by omega)).trans h5
    refine (complete_spec hs h15 hk).mono ?_
    intro _ p6 h6
    have hat6 : AtSection p6.nth := by
      have e1 : p6.nth = p5.nth := by
        funext i
        rw [h6.nth, h15.nth, hs.same.1]
      rw [e1]; exact hat
    rw [hs.same.2.2.1, hkn] at h6
    rcases hnt with rfl | rfl
    · exact ⟨_, _, h6.mono (by simp [hOf]) (by simp [nOf]), by omega, by omega, hat6⟩
    · exact ⟨_, _, h6.mono (by simp [hOf]) (by simp [nOf]), by omega, by omega, hat6⟩
  have rest : ∀ j4 e4 p4, Ran 0 0 j4 e4 p3 p4 → e4 ≤ 1 → wp (do
      trailingComment
      if !(← read (·.atTs TS_LINE_END)) then invalidLine .ExpectedLineBreak
      rec .sectionLoop
      complete m k) (fun _ p' => ∃ j e, Ran (hOf (128 - p.depth) nt) (nOf (128 - p.depth) nt) j e p p' ∧
        Post nt p p' j e) p4 := by
    intro j4 e4 p4 h4 he4
    refine wp.seq (trailingComment_spec h4.inv) ?_
    rintro _ p5 ⟨j5, h5, -, -⟩
    have h15 := h13.trans ((h4.trans h5).mono (by omega) (by omega))
    refine wp.bind (wp.read ?_)
    by_cases hle : p5.atTs TS_LINE_END = true
    · rw [hle]
      exact last _ _ p5 h15 (by omega) (by omega)
    · rw [Bool.eq_false_iff.mpr hle]
      refine wp.seq (invalidLine_spec h5.inv _) ?_
      rintro _ p6 ⟨j6, h6, h6p, -⟩
      exact last _ _ p6 (h15.trans (h6.mono (by omega) (by omega))) (by omega) (by omega)
  refine wp.seq (eat_spec h3.inv hclose) ?_
  rintro b p4 ⟨-, h4⟩
  cases b with
  | true => exact rest _ 0 p4 h4 (by omega)
  | false =>
    refine wp.seq (invalidLine_spec h4.inv _) ?_
    rintro _ p5 ⟨j5, h5, -, -⟩
    exact rest _ _ p5 (h4.trans h5) (by omega)

theorem table_claim (hrec : Rec rec (8 * p.rem + rank .table)) (hi : Inv p)
    (hpre : Pre .table p) : Claim (table G rec) .table p := by
  obtain ⟨n, hp, hk⟩ := hpre
  refine wp.seq (start_spec hi) ?_
  rintro m p1 ⟨hs, hi1⟩
  refine wp.seq (leadingComments_peek hi1 (n := n) (by rw [hs.same.1]; exact hp)
    (by rw [hs.same.1, hk]; decide)) ?_
  intro _ p2 h2
  have hat : p2.nthAt 0 BRACKET_START = true := by
    rw [nthAt_plain rfl, h2.nth, hs.same.1]; simp [hk]
  refine wp.bind (wp.read ?_)
  refine wp.bind ?_
  rw [show p2.atKind BRACKET_START = true from hat]
  refine ⟨(), p2, rfl, ?_⟩
  refine wp.seq (eat_spec h2.inv (by decide)) ?_
  rintro b p3 ⟨hb, h3⟩
  rw [hat] at hb
  subst hb
  exact header_spec G hrec hs (h2.trans h3) (by simp [rawOf]) (by decide) (by decide) rfl
    (Or.inl rfl)

theorem arrayOfTable_claim (hrec : Rec rec (8 * p.rem + rank .arrayOfTable)) (hi : Inv p)
    (hpre : Pre .arrayOfTable p) : Claim (arrayOfTable G rec) .arrayOfTable p := by
  obtain ⟨n, hp, hk⟩ := hpre
  refine wp.seq (start_spec hi) ?_
  rintro m p1 ⟨hs, hi1⟩
  have hb : p.nth n = BRACKET_START := by
    simp [Parser.nthAt, Parser.atComposite2] at hk
    exact hk.1.1
  refine wp.seq (leadingComments_peek hi1 (n := n) (by rw [hs.same.1]; exact hp)
    (by rw [hs.same.1, hb]; decide)) ?_
  intro _ p2 h2
  have hat : p2.nthAt 0 DOUBLE_BRACKET_START = true := by
    rw [h2.nthAt, hs.same.2.2.2.1]; simpa using hk
  refine wp.bind (wp.read ?_)
  refine wp.bind ?_
  rw [show p2.atKind DOUBLE_BRACKET_START = true from hat]
  refine ⟨(), p2, rfl, ?_⟩
  refine wp.seq (eat_spec h2.inv (by decide)) ?_
  rintro b p3 ⟨hb, h3⟩
  rw [hat] at hb
  subst hb
  exact header_spec G hrec hs (h2.trans h3) (by simp [rawOf]) (by decide) (by decide) rfl
    (Or.inr rfl)

theorem rootLoop_claim (hrec : Rec rec (8 * p.rem + rank .rootLoop)) (hi : Inv p)
    (hpre : Pre .rootLoop p) : Claim (rootLoop rec) .rootLoop p := by
  obtain ⟨hnd, n0, hp0, hk0⟩ := hpre
  refine wp.seq (eatLineBreaks_spec hi) ?_
  rintro _ p1 ⟨j1, h1, h1a, -⟩
  have hj1 : j1 = 0 := by
    apply Classical.byContradiction
    intro h
    exact hnd.1 (h1a 0 (by omega))
  subst hj1
  have hn : p1.nth = p.nth := by funext i; simpa using h1.nth i
  refine wp.seq (peek_spec h1.inv) ?_
  rintro n p1 ⟨rfl, hp⟩
  rw [hn] at hp
  have := hp.det hp0
  subst this
  refine wp.bind (wp.read ?_)
  rw [nthAt_plain (k := EOF) rfl, hn]
  by_cases he : p.nth n = EOF
  · rw [show (p.nth n == EOF) = true by simp [he]]
    have hz : n = 0 := hnd.peek_zero hp0 (Or.inr (Or.inr he))
    refine wp.pure ⟨0, 0, h1.mono (Nat.zero_le _) (Nat.zero_le _), by omega, ?_⟩
    rw [hn, ← hz]; exact he
  · rw [show (p.nth n == EOF) = false by simp [he]]
    have hbr : p.nth n = BRACKET_START := by
      rcases hk0 with h | h
      · exact h
      · exact absurd h he
    have step : ∀ nt, (nt = .table ∨ nt = .arrayOfTable) → Pre nt p1 → wp (do rec nt; rec .rootLoop)
        (fun _ p' => ∃ j e, Ran (hOf (128 - p.depth) .rootLoop) (nOf (128 - p.depth) .rootLoop) j e p p' ∧
          Post .rootLoop p p' j e) p1 := by
      intro nt hnt hpre
      refine wp.seq (call hrec nt h1 (by rcases hnt with rfl | rfl <;> simp [rank]) hpre) ?_
      rintro _ p2 ⟨j2, e2, h2, hpost⟩
      have hpost' : 1 ≤ j2 ∧ e2 ≤ 8 * j2 ∧ AtSection p2.nth := by
        rcases hnt with rfl | rfl <;> exact hpost
      have h12 := (h1.mono (h' := hOf (128 - p.depth) .rootLoop) (n' := nOf (128 - p.depth) .rootLoop)
        (Nat.zero_le _) (Nat.zero_le _)).trans (h2.mono (by rcases hnt with rfl | rfl <;> simp [hOf])
          (by rcases hnt with rfl | rfl <;> simp [nOf]))
      refine (call hrec .rootLoop h12 (by simp [rank]; omega) hpost'.2.2).mono ?_
      rintro _ p3 ⟨j3, e3, h3, he3, heof⟩
      exact ⟨_, _, h12.trans h3, by omega, heof⟩
    refine wp.bind (wp.read ?_)
    by_cases hd : p1.nthAt n DOUBLE_BRACKET_START = true
    · rw [hd]
      exact step .arrayOfTable (Or.inr rfl) ⟨n, by rw [hn]; exact hp, hd⟩
    · rw [Bool.eq_false_iff.mpr hd]
      refine wp.bind (wp.read ?_)
      rw [nthAt_plain (k := BRACKET_START) rfl, hn, hbr]
      exact step .table (Or.inl rfl) ⟨n, by rw [hn]; exact hp, by rw [hn]; exact hbr⟩

theorem parseNT_claim (fuel : Nat) : Rec (parseNT G fuel) fuel := by
  induction fuel with
  | zero => intro nt p _ h; omega
  | succ fuel ih =>
    intro nt p hi hb hpre
    have hrec : Rec (parseNT G fuel) (8 * p.rem + rank nt) := by
      intro nt' p' hi' hb' hpre'
      exact ih nt' p' hi' (by omega) hpre'
    cases nt
    · exact value_claim G hrec hi hpre
    · exact array_claim hrec hi hpre
    · exact arrayLoop_claim hrec hi
    · exact inlineTable_claim hrec hi hpre
    · exact inlineTableLoop_claim hrec hi
    · exact valueGroup_claim hrec hi hpre
    · exact valueGroupLoop_claim hrec hi hpre
    · exact commaGroup_claim hrec hi hpre
    · exact commaGroupLoop_claim hrec hi hpre
    · exact keyValue_claim G hrec hi hpre
    · exact keyValueGroup_claim hrec hi hpre
    · exact keyValueGroupLoop_claim hrec hi hpre
    · exact sectionLoop_claim hrec hi
    · exact table_claim G hrec hi hpre
    · exact arrayOfTable_claim G hrec hi hpre
    · exact rootLoop_claim hrec hi hpre

/-- What a run of the parser on a whole document gives. -/
theorem root_spec (hi : Inv p) (hd : p.depth = 0) (he : p.events = []) (ht : p.tokens = []) :
    wp (root G) (fun _ p' => Inv p' ∧ p'.source = p.source ∧ p'.input = p.input ∧ p'.nth 0 = EOF ∧
      ∃ evs e, p'.events = .start ROOT :: (evs ++ [.finish]) ∧ Balanced 390 128 e evs ∧
        Emits evs p'.tokens ∧ e ≤ 8 * p.rem) p := by
  refine wp.seq (start_spec hi) ?_
  rintro m p1 ⟨hs, hi1⟩
  have hd1 : p1.depth = 0 := by rw [hs.same.2.2.1, hd]
  have hfuel : 8 * p1.rem + 8 ≤ recFuel p1 := by
    have h1 : p1.rem < loopFuel p1 := rem_lt_fuel p1
    unfold recFuel
    unfold loopFuel at h1
    omega
  refine wp.bind (wp.get ?_)
  have hrec := parseNT_claim G (recFuel p1)
  refine wp.seq (hrec .sectionLoop p1 hi1 (by simp [rank]; omega) trivial) ?_
  rintro _ p2 ⟨j2, e2, h2, he2, hat⟩
  refine wp.seq (call hrec .rootLoop h2 (by simp [rank]; omega) hat) ?_
  rintro _ p3 ⟨j3, e3, h3, he3, heof⟩
  rw [hd1] at h2 h3
  have h13 := (h2.mono (h' := 390) (n' := 128) (by simp [hOf]) (by simp [nOf])).trans
    (h3.mono (by simp [hOf]) (by simp [nOf]))
  obtain ⟨rfl, rfl⟩ := hs
  obtain ⟨evs, toks, x1, x2, x3, x4⟩ := h13.out
  have hrem := h13.rem
  have hget : p3.events[p.events.length]? = some (.start TOMBSTONE) := by
    rw [x1]; simp
  refine ⟨(), { p3 with events := .start ROOT :: (evs ++ [.finish]) }, ?_, ?_⟩
  · show (match p3.events[p.events.length]? with
      | some (.start _) => (do
          set { p3 with events := p3.events.set p.events.length (.start ROOT) }
          pushEvent .finish : PM Unit)
      | _ => panic) p3 = _
    rw [hget, x1, he]
    rfl
  · refine ⟨h3.inv.pushEvents _, h13.source, h13.input, heof, evs, _, rfl, x3, ?_, ?_⟩
    · simp only [] at x2
      rw [ht, List.nil_append] at x2
      rw [x2]; exact x4
    · have : Parser.rem { p with events := p.events ++ [.start TOMBSTONE] } = p.rem := rfl
      rw [this] at hrem
      omega

end
end PM
end Tombi
