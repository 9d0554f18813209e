import Verif.Proofs.View
/-! The parser follows the parser on views as long as it reports no error: the primitive methods. -/
namespace Tombi
open SyntaxKind View PM

/-! ### Views -/

theorem viewOf_append (src : List Char) (a b : List Token) :
    ∃ x, viewOf src (a ++ b) = x ++ viewOf src b ∧ x.length = (sig a).length := by
  induction a with
  | nil => exact ⟨[], rfl, rfl⟩
  | cons t ts ih =>
    obtain ⟨x, h1, h2⟩ := ih
    by_cases ht : t.kind.isTrivia = true
    · exact ⟨x, by simp [viewOf, ht, h1], by rw [sig_cons_triv ht]; exact h2⟩
    · exact ⟨_ :: x, by simp [viewOf, ht, h1]; rfl, by rw [sig_cons_sig (by simpa using ht)]; simp [h2]⟩

theorem viewOf_triv (src : List Char) {a : List Token} (b : List Token) (h : ∀ t ∈ a, t.kind.isTrivia = true) :
    viewOf src (a ++ b) = viewOf src b := by
  obtain ⟨x, h1, h2⟩ := viewOf_append src a b
  rw [sig_eq_nil.mpr h] at h2
  rw [h1, List.length_eq_zero_iff.mp h2]; rfl

theorem viewOf_kinds (src : List Char) (a : List Token) :
    (viewOf src a).map (·.kind) = (sig a).map (·.kind) := by
  induction a with
  | nil => rfl
  | cons t ts ih =>
    by_cases ht : t.kind.isTrivia = true
    · simp [viewOf, ht, sig_cons_triv ht, ih]
    · simp [viewOf, ht, sig_cons_sig (t := t) (ts := ts) (by simpa using ht), ih]

theorem viewOf_length (src : List Char) (a : List Token) : (viewOf src a).length = (sig a).length := by
  simpa using congrArg List.length (viewOf_kinds src a)

theorem hd_drop (v : View) (n : Nat) : hd (v.drop n) = ((v.map (·.kind))[n]?).getD EOF := by
  induction v generalizing n with
  | nil => simp [hd]
  | cons t ts ih =>
    cases n with
    | zero => rfl
    | succ n => simpa using ih n

/-- the significant tokens ahead -/
def Parser.view (p : Parser) : View := viewOf p.source p.rest

theorem Parser.nth_view (p : Parser) (n : Nat) : p.nth n = hd (p.view.drop n) := by
  rw [nth_eq, hd_drop, view, viewOf_kinds]
  simp only [List.getElem?_map]
  cases (sig p.rest)[n]? <;> rfl

theorem Parser.current_view (p : Parser) : p.current = hd p.view := by
  have := p.nth_view 0; rwa [List.drop_zero] at this

theorem Parser.isJoint_view (p : Parser) (n : Nat) {t : VTok} {v : View} (h : p.view.drop n = t :: v) :
    p.isJoint n = t.joint := by
  have hlen : n < (sig p.rest).length := by
    have := congrArg List.length h
    simp [view, viewOf_length] at this
    omega
  obtain ⟨A, u, B, h1, h2, h3, h4⟩ := nthIndexFrom_lt hlen p.pos
  have hidx : p.nthIndex n = p.pos + A.length := h4
  obtain ⟨x, hx, hxl⟩ := viewOf_append p.source A (u :: B)
  have hd : p.view.drop n = ⟨u.kind, textAt p.source u, jointBefore B⟩ :: viewOf p.source B := by
    rw [view, h1, hx, ← h3, ← hxl, List.drop_left]
    simp [viewOf, h2]
  rw [hd] at h
  cases h
  unfold isJoint
  have : p.input[p.nthIndex n + 1]? = B[0]? := by
    have h5 : p.input[p.nthIndex n + 1]? = p.rest[A.length + 1]? := by
      simp [Parser.rest, hidx, Nat.add_assoc]
    rw [h5, h1, List.getElem?_append_right (by omega)]; simp
  rw [this]
  cases B <;> rfl

theorem Parser.nthAt_view (p : Parser) (n : Nat) {k : SyntaxKind} (hk : rawOf k = 1) :
    p.nthAt n k = (hd (p.view.drop n) == k) := by rw [nthAt_plain hk, nth_view]

theorem Parser.nthAt_pair (p : Parser) (n : Nat) (k : SyntaxKind) (hk : k ≠ EOF) :
    p.atComposite2 n k k = atPair k (p.view.drop n) := by
  unfold atComposite2
  rw [nth_view, nth_view]
  have hd1 : p.view.drop (n + 1) = (p.view.drop n).drop 1 := by rw [List.drop_drop]
  rw [hd1]
  cases h : p.view.drop n with
  | nil => simp [hd, atPair]; intro h; exact absurd h.symm hk
  | cons t v =>
    rw [p.isJoint_view n h]
    cases v with
    | nil =>
      simp [hd, atPair]
      intro _ h; exact absurd h.symm hk
    | cons u v => simp [hd, atPair]

theorem Parser.nthAt_start (p : Parser) (n : Nat) :
    p.nthAt n DOUBLE_BRACKET_START = atPair BRACKET_START (p.view.drop n) := p.nthAt_pair n _ (by decide)

theorem Parser.nthAt_end (p : Parser) (n : Nat) :
    p.nthAt n DOUBLE_BRACKET_END = atPair BRACKET_END (p.view.drop n) := p.nthAt_pair n _ (by decide)

/-! ### Events and tokens of a list of trees -/

mutual
/-- the leaves of a tree -/
def leaves : Green → List (SyntaxKind × List Char)
  | .token k w => [(k, w)]
  | .node _ cs => leavesL cs
def leavesL : List Green → List (SyntaxKind × List Char)
  | [] => []
  | g :: gs => leaves g ++ leavesL gs
end

mutual
/-- the events of a tree -/
def evsOf : Green → List Event
  | .token k _ => [.token k (rawOf k)]
  | .node k cs => .start k :: (evsOfL cs ++ [.finish])
def evsOfL : List Green → List Event
  | [] => []
  | g :: gs => evsOf g ++ evsOfL gs
end

theorem leavesL_append (a b : List Green) : leavesL (a ++ b) = leavesL a ++ leavesL b := by
  induction a with
  | nil => rfl
  | cons g gs ih => simp [leavesL, ih]

theorem evsOfL_append (a b : List Green) : evsOfL (a ++ b) = evsOfL a ++ evsOfL b := by
  induction a with
  | nil => rfl
  | cons g gs ih => simp [evsOfL, ih]

/-- The tokens of the leaves, among trivia: a leaf is one token, or two that touch. -/
inductive Covers (src : List Char) : List Token → List (SyntaxKind × List Char) → Prop where
  | nil : Covers src [] []
  | triv {t : Token} {ts : List Token} {ls : List (SyntaxKind × List Char)} : t.kind.isTrivia = true →
      Covers src ts ls → Covers src (t :: ts) ls
  | one {t : Token} {ts : List Token} {k : SyntaxKind} {ls : List (SyntaxKind × List Char)} :
      t.kind.isTrivia = false → rawOf k = 1 → Covers src ts ls → Covers src (t :: ts) ((k, textAt src t) :: ls)
  | two {t u : Token} {ts : List Token} {k : SyntaxKind} {ls : List (SyntaxKind × List Char)} :
      t.kind.isTrivia = false → u.kind.isTrivia = false → rawOf k = 2 →
      Covers src ts ls → Covers src (t :: u :: ts) ((k, textAt src t ++ textAt src u) :: ls)

theorem Covers.append {src : List Char} {a b : List Token} {la lb : List (SyntaxKind × List Char)}
    (ha : Covers src a la) (hb : Covers src b lb) : Covers src (a ++ b) (la ++ lb) := by
  induction ha with
  | nil => exact hb
  | triv h _ ih => exact .triv h ih
  | one h h' _ ih => exact .one h h' ih
  | two h h' h'' _ ih => exact .two h h' h'' ih

theorem Covers.trivs {src : List Char} {a : List Token} (h : ∀ t ∈ a, t.kind.isTrivia = true) : Covers src a [] := by
  induction a with
  | nil => exact .nil
  | cons t ts ih => exact .triv (h t (by simp)) (ih fun x hx => h x (by simp [hx]))

/-- no two blanks touch -/
def NoAdj : List Token → Prop
  | t :: u :: ts => ¬ (t.kind.isTrivia = true ∧ u.kind.isTrivia = true) ∧ NoAdj (u :: ts)
  | _ => True

theorem NoAdj.tail {t : Token} {ts : List Token} (h : NoAdj (t :: ts)) : NoAdj ts := by
  cases ts with
  | nil => trivial
  | cons u ts => exact h.2

theorem NoAdj.cons {t : Token} {ts : List Token} (ht : t.kind.isTrivia = false) : NoAdj (t :: ts) ↔ NoAdj ts := by
  cases ts with
  | nil => simp [NoAdj]
  | cons u ts => simp [NoAdj, ht]

theorem NoAdj.split {a b : List Token} {t : Token} (ht : t.kind.isTrivia = false) :
    NoAdj (a ++ t :: b) ↔ NoAdj a ∧ NoAdj b := by
  induction a with
  | nil => rw [List.nil_append, NoAdj.cons ht]; simp [NoAdj]
  | cons x a ih =>
    cases a with
    | nil => rw [List.cons_append, List.nil_append] at *; simp [NoAdj, ht, NoAdj.cons ht]
    | cons y a =>
      simp only [List.cons_append] at ih ⊢
      simp only [NoAdj, ih, and_assoc]

/-- `p'` is `p` after building the trees `F` without errors. -/
structure Run (F : List Green) (p p' : Parser) : Prop where
  source : p'.source = p.source
  input : p'.input = p.input
  depth : p'.depth = p.depth
  inv : Inv p'
  events : p'.events = p.events ++ evsOfL F
  tokens : ∃ toks, p'.tokens = p.tokens ++ toks ∧ Covers p.source toks (leavesL F)
  adj : NoAdj (p.tokens ++ p.rest) → NoAdj (p'.tokens ++ p'.rest)

theorem Run.refl {p : Parser} (hi : Inv p) : Run [] p p :=
  ⟨rfl, rfl, rfl, hi, by simp [evsOfL], ⟨[], by simp, .nil⟩, id⟩

theorem Run.trans {F F' : List Green} {p p' p'' : Parser} (h : Run F p p') (h' : Run F' p' p'') :
    Run (F ++ F') p p'' := by
  obtain ⟨t, h1, h2⟩ := h.tokens
  obtain ⟨t', h1', h2'⟩ := h'.tokens
  refine ⟨h'.source.trans h.source, h'.input.trans h.input, h'.depth.trans h.depth, h'.inv, ?_, ⟨t ++ t', ?_, ?_⟩,
    fun h0 => h'.adj (h.adj h0)⟩
  · rw [h'.events, h.events, evsOfL_append, List.append_assoc]
  · rw [h1', h1, List.append_assoc]
  · rw [leavesL_append]
    rw [h.source] at h2'
    exact h2.append h2'

/-- number of errors reported -/
def nerr (p : Parser) : Nat := (errsOf p.events).length

/-- The outcome of a run, against the outcome on views. -/
def Res (p : Parser) (r : Option (List Green × View)) (p' : Parser) : Prop :=
  match r with
  | none => nerr p < nerr p'
  | some (F, v) => Run F p p' ∧ p'.view = v

theorem pm_bind_ok {α β : Type} {m : PM α} {f : α → PM β} {p p' : Parser} {b : β}
    (h : (m >>= f) p = .ok (b, p')) : ∃ a p1, m p = .ok (a, p1) ∧ f a p1 = .ok (b, p') := by
  have h' : (m p >>= fun x => f x.1 x.2) = .ok (b, p') := h
  cases hm : m p with
  | error e => rw [hm] at h'; cases h'
  | ok x =>
    rw [hm] at h'
    exact ⟨x.1, x.2, rfl, h'⟩

theorem pure_ok {α : Type} {a b : α} {p p' : Parser} (h : (pure a : PM α) p = .ok (b, p')) : a = b ∧ p = p' := by
  cases h; exact ⟨rfl, rfl⟩

/-- never loses errors -/
def Mono {α : Type} (m : PM α) : Prop := ∀ p a p', m p = .ok (a, p') → nerr p ≤ nerr p'

/-- always reports an error -/
def Errs {α : Type} (m : PM α) : Prop := ∀ p a p', m p = .ok (a, p') → nerr p < nerr p'

namespace Mono
variable {α β : Type}

theorem bind {m : PM α} {f : α → PM β} (h : Mono m) (h' : ∀ a, Mono (f a)) : Mono (m >>= f) := by
  intro p b p' hr
  obtain ⟨a, p1, h1, h2⟩ := pm_bind_ok hr
  exact Nat.le_trans (h _ _ _ h1) (h' a _ _ _ h2)

theorem pure (a : α) : Mono (Pure.pure a : PM α) := by
  intro p b p' h
  obtain ⟨_, rfl⟩ := pure_ok h
  exact Nat.le_refl _

theorem throw (e : Abort) : Mono (throw e : PM α) := by intro p b p' h; cases h

theorem read (f : Parser → α) : Mono (PM.read f) := by
  intro p b p' h
  cases h; exact Nat.le_refl _

theorem get : Mono (MonadState.get : PM Parser) := by
  intro p b p' h
  cases h; exact Nat.le_refl _

theorem ite {c : Prop} [Decidable c] {a b : PM α} (ha : Mono a) (hb : Mono b) : Mono (if c then a else b) := by
  split
  · exact ha
  · exact hb

theorem lift (x : Except Abort α) : Mono (liftM x : PM α) := by
  intro p b p' h
  cases x with
  | error e => cases h
  | ok a => cases h; exact Nat.le_refl _

end Mono

theorem Errs.mono {α : Type} {m : PM α} (h : Errs m) : Mono m := fun p a p' hr => Nat.le_of_lt (h p a p' hr)

theorem Errs.left {α β : Type} {m : PM α} {f : α → PM β} (h : Errs m) (h' : ∀ a, Mono (f a)) : Errs (m >>= f) := by
  intro p b p' hr
  obtain ⟨a, p1, h1, h2⟩ := pm_bind_ok hr
  exact Nat.lt_of_lt_of_le (h _ _ _ h1) (h' a _ _ _ h2)

theorem Errs.right {α β : Type} {m : PM α} {f : α → PM β} (h : Mono m) (h' : ∀ a, Errs (f a)) : Errs (m >>= f) := by
  intro p b p' hr
  obtain ⟨a, p1, h1, h2⟩ := pm_bind_ok hr
  exact Nat.lt_of_le_of_lt (h _ _ _ h1) (h' a _ _ _ h2)

theorem mono_pushEvent (e : Event) : Mono (pushEvent e) := by
  intro p a p' h
  cases h
  simp [nerr, errsOf]

theorem errs_error (k : PErrorKind) (r : Range) : Errs (error k r) := by
  intro p a p' h
  cases h
  simp [nerr, errsOf]

theorem mono_start : Mono start := .bind .get fun _ => .bind (mono_pushEvent _) fun _ => .pure _

theorem errsOf_set {evs : List Event} {m : Nat} {k k' : SyntaxKind} (h : evs[m]? = some (.start k)) :
    errsOf (evs.set m (.start k')) = errsOf evs := by
  induction evs generalizing m with
  | nil => rfl
  | cons e es ih =>
    cases m with
    | zero => simp at h; subst h; rfl
    | succ m =>
      have := ih (m := m) (by simpa using h)
      simp only [errsOf] at this
      simp [errsOf, List.filterMap_cons, this]

theorem mono_complete (m : Nat) (k : SyntaxKind) : Mono (complete m k) := by
  intro p a p' h
  have h' : (match p.events[m]? with
      | some (.start _) => (do
          set ({ p with events := p.events.set m (.start k) } : Parser)
          pushEvent .finish : PM Unit)
      | _ => panic) p = .ok (a, p') := h
  cases hg : p.events[m]? with
  | none => rw [hg] at h'; cases h'
  | some e =>
    rw [hg] at h'
    cases e with
    | start k0 =>
      cases h'
      have := errsOf_set (k' := k) hg
      simp only [errsOf] at this
      simp [nerr, errsOf, List.filterMap_append, this]
    | _ => cases h'

theorem mono_doBump (k : SyntaxKind) (n : Nat) : Mono (doBump k n) := by
  refine .bind (mono_pushEvent _) fun _ => ?_
  intro p a p' h
  have h' : (if p.pos ≤ p.nthIndex n then (set ({ p with
      tokens := p.tokens ++ (p.input.take (p.nthIndex n)).drop p.pos
      pos := p.nthIndex n } : Parser) : PM Unit) else panic) p = .ok (a, p') := h
  split at h'
  · cases h'; exact Nat.le_refl _
  · cases h'

theorem mono_panic {α : Type} : Mono (panic : PM α) := Mono.throw _

theorem mono_currentRange : Mono currentRange := by
  refine .bind .get fun p => ?_
  split
  · exact .pure _
  · exact mono_panic

theorem mono_previousRange : Mono previousRange := by
  refine .bind .get fun p => ?_
  split
  · exact .pure _
  · split
    · exact .pure _
    · exact mono_panic

theorem mono_dassert (b : Bool) : Mono (dassert b) := .ite (.pure _) mono_panic

theorem mono_modify {f : Parser → Parser} (h : ∀ p, (f p).events = p.events) : Mono (modify f : PM Unit) := by
  intro p a p' hr
  cases hr
  simp [nerr, h]

theorem mono_error (k : PErrorKind) (r : Range) : Mono (error k r) := mono_pushEvent _

theorem mono_doBumpKind (k : SyntaxKind) : Mono (doBumpKind k) := mono_doBump _ _

theorem mono_eat (k : SyntaxKind) : Mono (eat k) :=
  .bind (.read _) fun _ => .ite (.bind (mono_doBumpKind _) fun _ => .pure _) (.pure _)

theorem mono_eatTs (k : TokenSet) : Mono (eatTs k) :=
  .bind (.read _) fun _ => .ite (.bind (mono_doBumpKind _) fun _ => .pure _) (.pure _)

theorem mono_bump (k : SyntaxKind) : Mono (bump k) := .bind (mono_eat _) fun _ => mono_dassert _

theorem mono_bumpAny : Mono bumpAny := .bind (.read _) fun _ => .ite (.pure _) (mono_doBump _ _)

theorem mono_bumpRemap (k : SyntaxKind) : Mono (bumpRemap k) :=
  .bind (.read _) fun _ => .ite (.pure _) (mono_doBump _ _)

theorem mono_pushToken (t : Token) : Mono (pushToken t) :=
  .bind mono_start fun _ => .bind (mono_modify fun _ => rfl) fun _ => .bind (mono_pushEvent _) fun _ => mono_complete _ _

theorem mono_bumpFloatKey (G : Segmenter) : Mono (bumpFloatKey G) := by
  refine .bind (.read _) fun _ => .bind (mono_dassert _) fun _ => .bind (.read _) fun t => .bind (.read _) fun s => ?_
  split
  · exact mono_panic
  · refine .ite ?_ (.bind mono_start fun _ => .bind (mono_bumpRemap _) fun _ => mono_complete _ _)
    split
    · exact .bind (mono_pushToken _) fun _ => .bind (mono_pushToken _) fun _ =>
        .bind (mono_pushToken _) fun _ => mono_modify fun _ => rfl
    · exact mono_panic

theorem mono_invalidToken : Mono invalidToken := .bind mono_start fun _ => mono_complete _ _

theorem mono_peek : Mono peekLeadingComments := .bind .get fun _ => .lift _

theorem mono_eatTsLoop (k : TokenSet) (n : Nat) : Mono (eatTsLoop k n) := by
  induction n with
  | zero => exact .throw _
  | succ n ih => exact .bind (mono_eatTs _) fun _ => .ite ih (.pure _)

theorem mono_eatLoop (k : SyntaxKind) (n : Nat) : Mono (eatLoop k n) := by
  induction n with
  | zero => exact .throw _
  | succ n ih => exact .bind (mono_eat _) fun _ => .ite ih (.pure _)

theorem mono_lead : Mono leadingComments := .bind .get fun _ => mono_eatTsLoop _ _
theorem mono_trail : Mono trailingComment := .bind .get fun _ => mono_eatLoop _ _
theorem mono_breaks : Mono eatLineBreaks := .bind .get fun _ => mono_eatLoop _ _

theorem mono_bumpUntil (s : TokenSet) (n : Nat) : Mono (bumpUntil s n) := by
  induction n with
  | zero => exact .throw _
  | succ n ih => exact .bind (.read _) fun _ => .ite (.pure _) (.bind mono_bumpAny fun _ => ih)

theorem errs_invalidLine (k : PErrorKind) : Errs (invalidLine k) :=
  .right mono_currentRange fun _ => .left (errs_error _ _) fun _ => .bind mono_bumpAny fun _ =>
    .bind .get fun _ => mono_bumpUntil _ _

theorem mono_isSep : Mono isGroupSeparator := .read _

theorem mono_eatKey (G : Segmenter) : Mono (eatKey G) := by
  refine .bind (.read _) fun k => ?_
  split
  iterate 3 exact .bind mono_start fun _ => .bind (mono_bump _) fun _ => .bind (mono_complete _ _) fun _ => .pure _
  iterate 6 exact .bind mono_start fun _ => .bind (mono_bumpRemap _) fun _ => .bind (mono_complete _ _) fun _ => .pure _
  · exact .bind (mono_bumpFloatKey _) fun _ => .pure _
  · exact .bind mono_start fun _ => .bind mono_currentRange fun _ => .bind (mono_error _ _) fun _ =>
      .bind (mono_complete _ _) fun _ => .pure _

theorem mono_eatKeysLoop (G : Segmenter) (n : Nat) (b : Bool) : Mono (eatKeysLoop G n b) := by
  induction n generalizing b with
  | zero => exact .throw _
  | succ n ih =>
    refine .bind (mono_eatKey _) fun _ => .bind (mono_eat _) fun _ => .ite (.pure _) <|
      .bind (.read _) fun _ => .ite (.bind mono_currentRange fun _ => .bind (mono_error _ _) fun _ => .pure _) (ih _)

theorem mono_eatKeys (G : Segmenter) : Mono (eatKeys G) :=
  .bind (.read _) fun _ => .ite (.bind .get fun _ => mono_eatKeysLoop _ _ _) (mono_eatKey _)

theorem mono_keys (G : Segmenter) : Mono (keys G) :=
  .bind mono_start fun _ => .bind (mono_eatKeys _) fun _ => .ite (mono_complete _ _) (mono_complete _ _)

theorem mono_comma : Mono comma :=
  .bind mono_start fun _ => .bind mono_lead fun _ => .bind (.read _) fun _ => .bind (mono_dassert _) fun _ =>
    .bind (mono_eat _) fun _ => .bind mono_trail fun _ => mono_complete _ _

theorem mono_danglingLen : Mono danglingLen := .bind .get fun _ => .ite (.pure _) (.lift _)

theorem mono_bumpAnyN (n : Nat) : Mono (bumpAnyN n) := by
  induction n with
  | zero => exact .pure _
  | succ n ih => exact .bind mono_bumpAny fun _ => ih

theorem mono_danglingLoop (n : Nat) : Mono (danglingLoop n) := by
  induction n with
  | zero => exact .throw _
  | succ n ih =>
    refine .bind mono_breaks fun _ => .bind mono_danglingLen fun r => ?_
    split
    · exact .pure _
    · exact .bind mono_start fun _ => .bind (mono_bumpAnyN _) fun _ => .bind (mono_complete _ _) fun _ => ih

theorem mono_dangling : Mono danglingCommentGroups := .bind .get fun _ => mono_danglingLoop _

theorem mono_skipLoop (n d : Nat) (r : Range) : Mono (skipLoop n d r) := by
  induction n generalizing d r with
  | zero => exact .throw _
  | succ n ih =>
    refine .bind (.read _) fun k => ?_
    split
    · exact .pure _
    iterate 2 exact .bind mono_currentRange fun _ => .bind mono_bumpAny fun _ => ih _ _
    iterate 2
      refine .bind mono_currentRange fun _ => .bind mono_bumpAny fun _ => ?_
      split
      · exact mono_panic
      · exact .pure _
      · exact ih _ _
    · exact .bind mono_currentRange fun _ => .bind mono_bumpAny fun _ => ih _ _

theorem errs_skip : Errs skipTooDeepValue :=
  .right mono_start fun _ => .right mono_lead fun _ => .right mono_currentRange fun _ => .right .get fun _ =>
    .right (mono_skipLoop _ _ _) fun _ => .left (errs_error _ _) fun _ => .bind mono_trail fun _ => mono_complete _ _

theorem mono_literal : Mono literalValue :=
  .bind mono_start fun _ => .bind mono_lead fun _ => .bind (.read _) fun _ => .bind (mono_bump _) fun _ =>
    .bind mono_trail fun _ => mono_complete _ _

theorem mono_invalidValueLoop (n : Nat) (r : Range) : Mono (invalidValueLoop n r) := by
  induction n generalizing r with
  | zero => exact .throw _
  | succ n ih =>
    exact .bind (.read _) fun _ => .ite (.pure _) (.bind mono_currentRange fun _ => .bind mono_bumpAny fun _ => ih _)

theorem errs_invalidValue (n : Nat) : Errs (invalidValue n) := by
  have h : ∀ m : Nat, Errs (do
      let startRange ← currentRange
      let endRange ← invalidValueLoop (loopFuel (← get)) startRange
      error .ExpectedValue (startRange.add endRange)
      trailingComment
      complete m INVALID_TOKEN : PM Unit) := fun m =>
    .right mono_currentRange fun _ => .right .get fun _ => .right (mono_invalidValueLoop _ _) fun _ =>
      .left (errs_error _ _) fun _ => .bind mono_trail fun _ => mono_complete _ _
  refine .right mono_start fun m => ?_
  refine .right (.read _) fun b => ?_
  dsimp only
  split
  · exact .right mono_lead fun _ => h m
  · exact h m

theorem errs_bareKeyValue (G : Segmenter) (n : Nat) : Errs (bareKeyValue G n) := by
  refine .right (.read _) fun _ => .left (errs_error _ _) fun _ => .bind mono_start fun _ => .bind mono_lead fun _ =>
    .bind mono_start fun _ => .bind (mono_eatKeys _) fun _ => ?_
  dsimp only
  refine .ite ?_ ?_
  · exact .bind (mono_complete _ _) fun _ => .bind mono_trail fun _ => mono_complete _ _
  · exact .bind mono_panic fun _ => .bind mono_trail fun _ => mono_complete _ _

theorem errs_unknownLine : Errs unknownLine :=
  .right mono_start fun _ => .right mono_lead fun _ => .right .get fun _ => .right (mono_bumpUntil _ _) fun _ =>
    .right mono_currentRange fun _ => .left (errs_error _ _) fun _ => .bind mono_trail fun _ => mono_complete _ _

end Tombi
