import Verif.Proofs.Output
import Verif.Proofs.ParserBase
import Verif.Spec.Tree
/-! The tree builder on balanced events. -/
namespace Tombi
open SyntaxKind

theorem Green.texts_append (a b : List Green) : Green.texts (a ++ b) = Green.texts a ++ Green.texts b := by
  induction a with
  | nil => rfl
  | cons g gs ih => simp [Green.texts, ih]

theorem Green.heights_append (a b : List Green) :
    Green.heights (a ++ b) = max (Green.heights a) (Green.heights b) := by
  induction a with
  | nil => simp [Green.heights]
  | cons g gs ih => simp [Green.heights, ih, Nat.max_assoc]

theorem Green.nestings_append (a b : List Green) :
    Green.nestings (a ++ b) = max (Green.nestings a) (Green.nestings b) := by
  induction a with
  | nil => simp [Green.nestings]
  | cons g gs ih => simp [Green.nestings, ih, Nat.max_assoc]

/-- tokens after the trivia -/
def dw (T : List Token) : List Token := T.dropWhile (·.kind.isTrivia)

theorem consume_nil {evs : List Event} {R : List Token} (h : consume evs [] = some R) : R = [] := by
  induction evs with
  | nil => simpa [consume] using h.symm
  | cons x xs ih =>
    cases x with
    | token k m =>
      rw [consume] at h
      split at h
      · exact ih (by simpa using h)
      · cases h
    | _ => exact ih (by simpa [consume] using h)

theorem consume_dw {evs : List Event} {T T' R : List Token} (hd : dw T = dw T')
    (h : consume evs T = some R) : ∃ R', consume evs T' = some R' ∧ dw R = dw R' := by
  induction evs generalizing T T' with
  | nil =>
    simp only [consume, Option.some.injEq] at h
    subst h
    exact ⟨T', rfl, hd⟩
  | cons x xs ih =>
    cases x with
    | token k m =>
      simp only [consume] at h ⊢
      unfold dw at hd
      rw [← hd]
      exact ⟨R, h, rfl⟩
    | _ => simpa [consume] using ih hd (by simpa [consume] using h)

theorem dw_dw (T : List Token) : dw (dw T) = dw T := by
  unfold dw
  induction T with
  | nil => rfl
  | cons t ts ih =>
    by_cases h : t.kind.isTrivia = true
    · simp [h, ih]
    · simp [h]

/-- the static facts of a build: the tokens cut the source, and the last one is no trivia -/
structure Build (source : List Char) (T : List Token) (ws : List (List Char)) : Prop where
  cut : Cut 0 T ws
  flat : ws.flatten = source

theorem Cut.length {o : Nat} {T : List Token} {ws : List (List Char)} (h : Cut o T ws) :
    ws.length = T.length := by
  induction T generalizing o ws with
  | nil => cases h; rfl
  | cons t ts ih =>
    obtain ⟨w, ws', rfl, _, h2⟩ := h
    simp [ih h2]

theorem Cut.start {o : Nat} {T : List Token} {ws : List (List Char)} (h : Cut o T ws) {i : Nat} {t : Token}
    (ht : T[i]? = some t) : t.span.start = o + utf8Len (ws.take i).flatten := by
  induction T generalizing o ws i with
  | nil => simp at ht
  | cons x ts ih =>
    obtain ⟨w, ws', rfl, h1, h2⟩ := h
    cases i with
    | zero =>
      simp at ht
      subst ht
      simp [h1]
    | succ i =>
      simp at ht
      rw [ih h2 ht]
      simp [Nat.add_assoc]

theorem Build.slice {source : List Char} {T : List Token} {ws : List (List Char)} (hb : Build source T ws)
    {i n : Nat} {t t' : Token} (ht : T[i]? = some t) (ht' : T[i + n]? = some t') :
    byteSlice t.span.start t'.span.start source = some ((ws.drop i).take n).flatten := by
  rw [hb.cut.start ht, hb.cut.start ht']
  have h1 : ws.take (i + n) = ws.take i ++ (ws.drop i).take n := by rw [List.take_add]
  have h2 : source = (ws.take i).flatten ++ ((ws.drop i).take n).flatten ++ ((ws.drop i).drop n).flatten := by
    rw [← hb.flat, ← List.flatten_append, ← List.flatten_append, List.append_assoc, List.take_append_drop,
      List.take_append_drop]
  rw [h1, h2]
  simpa using byteSlice_append (ws.take i).flatten ((ws.drop i).take n).flatten ((ws.drop i).drop n).flatten

/-- `b'` is `b` after consuming tokens up to `b'.index`, adding `new` children and `errs` errors -/
structure Grew (ws : List (List Char)) (new : List Green) (errs : List PError) (b b' : Builder) : Prop where
  source : b'.source = b.source
  tokens : b'.tokens = b.tokens
  le : b.index ≤ b'.index
  parents : b'.tree.parents = b.tree.parents
  children : b'.tree.children = b.tree.children ++ new
  errors : b'.tree.errors = b.tree.errors ++ errs
  text : Green.texts new = ((ws.drop b.index).take (b'.index - b.index)).flatten

theorem Grew.refl (ws : List (List Char)) (b : Builder) : Grew ws [] [] b b :=
  ⟨rfl, rfl, Nat.le_refl _, rfl, by simp, by simp, by simp [Green.texts]⟩

theorem Grew.trans {ws : List (List Char)} {new new' : List Green} {errs errs' : List PError} {b b' b'' : Builder}
    (h : Grew ws new errs b b') (h' : Grew ws new' errs' b' b'') :
    Grew ws (new ++ new') (errs ++ errs') b b'' := by
  refine ⟨h'.source.trans h.source, h'.tokens.trans h.tokens, Nat.le_trans h.le h'.le,
    h'.parents.trans h.parents, by rw [h'.children, h.children, List.append_assoc],
    by rw [h'.errors, h.errors, List.append_assoc], ?_⟩
  rw [Green.texts_append, h.text, h'.text]
  have h1 := h.le
  have h2 := h'.le
  have : b''.index - b.index = (b'.index - b.index) + (b''.index - b'.index) := by omega
  rw [this, List.take_add, List.flatten_append, List.drop_drop]
  congr 4
  omega

theorem doToken_spec {b : Builder} {ws : List (List Char)} (hb : Build b.source b.tokens ws)
    (k : SyntaxKind) {n : Nat} (hlt : b.index + n < b.tokens.length) :
    ∃ b', b.doToken k n = .ok b' ∧ b'.index = b.index + n ∧ b'.state = b.state ∧
      ∃ w, Grew ws [.token k w] [] b b' := by
  have h1 : b.tokens[b.index]? = some b.tokens[b.index] := List.getElem?_eq_getElem (by omega)
  have h2 : b.tokens[b.index + n]? = some b.tokens[b.index + n] := List.getElem?_eq_getElem hlt
  have hs := hb.slice h1 h2
  refine ⟨{ b with
    index := b.index + n
    tree := b.tree.token k ((ws.drop b.index).take n).flatten },
    by rw [Builder.doToken, h1, h2]; simp only [hs], rfl, rfl, ((ws.drop b.index).take n).flatten, ?_⟩
  refine ⟨rfl, rfl, by simp, rfl, rfl, by simp [TreeBuilder.token], ?_⟩
  simp [Green.texts, Green.text]

theorem drop_cons {T : List Token} {i : Nat} {t : Token} {X : List Token} (h : T.drop i = t :: X) :
    T[i]? = some t ∧ T.drop (i + 1) = X := by
  have h0 : T[i]? = (T.drop i)[0]? := by simp
  have h1 : T.drop (i + 1) = (T.drop i).drop 1 := by rw [List.drop_drop]
  rw [h0, h1, h]
  simp

theorem eatTriviasLoop_spec {ws : List (List Char)} (fuel : Nat) {b : Builder}
    (hb : Build b.source b.tokens ws) (hf : b.tokens.length < b.index + fuel)
    (hne : dw (b.tokens.drop b.index) ≠ []) :
    ∃ b', Builder.eatTriviasLoop fuel b = .ok b' ∧ b'.state = b.state ∧
      b'.tokens.drop b'.index = dw (b.tokens.drop b.index) ∧
      ∃ new, Grew ws new [] b b' ∧ Green.heights new = 0 ∧ Green.nestings new = 0 := by
  induction fuel generalizing b with
  | zero =>
    have : b.tokens.drop b.index = [] := List.drop_eq_nil_of_le (by omega)
    rw [this] at hne
    exact absurd rfl hne
  | succ fuel ih =>
    cases hd : b.tokens.drop b.index with
    | nil => rw [hd] at hne; exact absurd rfl hne
    | cons t X =>
      obtain ⟨h1, h2⟩ := drop_cons hd
      rw [Builder.eatTriviasLoop, h1]
      by_cases ht : t.kind.isTrivia = true
      · have hdw : dw (t :: X) = dw X := by simp [dw, ht]
        have hX : X ≠ [] := by
          rintro rfl
          rw [hd, hdw] at hne
          exact hne rfl
        have hlt : b.index + 1 < b.tokens.length := by
          apply Classical.byContradiction
          intro h
          exact hX (by rw [← h2]; exact List.drop_eq_nil_of_le (by omega))
        obtain ⟨b1, e1, e2, e3, w, hg⟩ := doToken_spec hb t.kind hlt
        simp only [ht, if_true]
        have hX1 : b1.tokens.drop b1.index = X := by rw [hg.tokens, e2, h2]
        obtain ⟨b2, f1, f2, f3, new, hg2, hh, hn⟩ := ih (b := b1) (by rw [hg.source, hg.tokens]; exact hb)
          (by rw [hg.tokens, e2]; omega) (by rw [hX1]; rw [hd, hdw] at hne; exact hne)
        refine ⟨b2, ?_, f2.trans e3, ?_, _, hg.trans hg2, ?_, ?_⟩
        · rw [e1]; exact f1
        · rw [f3, hX1, hdw]
        · simp [Green.heights, Green.height, hh]
        · simp [Green.nestings, Green.nesting, hn]
      · refine ⟨b, by simp [ht], rfl, ?_, [], Grew.refl ws b, rfl, rfl⟩
        simp [hd, dw, ht]

theorem eatTrivias_spec {ws : List (List Char)} {b : Builder}
    (hb : Build b.source b.tokens ws) (hne : dw (b.tokens.drop b.index) ≠ []) :
    ∃ b', b.eatTrivias = .ok b' ∧ b'.state = b.state ∧
      b'.tokens.drop b'.index = dw (b.tokens.drop b.index) ∧
      ∃ new, Grew ws new [] b b' ∧ Green.heights new = 0 ∧ Green.nestings new = 0 :=
  eatTriviasLoop_spec _ hb (by omega) hne

/-- `b0` is `b` with the pending end of a node carried out -/
def Norm (b b0 : Builder) : Prop := b.state ≠ .pendingEnter ∧ b.flush .normal = .ok b0

theorem Norm.flush {b b0 : Builder} (h : Norm b b0) (s : BState) :
    b.flush s = .ok { b0 with state := s } := by
  obtain ⟨h1, h2⟩ := h
  unfold Builder.flush at h2 ⊢
  cases hs : b.state with
  | pendingEnter => exact absurd hs h1
  | normal => rw [hs] at h2; simp only [Except.ok.injEq] at h2 ⊢; rw [← h2]
  | pendingExit =>
    rw [hs] at h2
    simp only [Builder.sinkFinish] at h2 ⊢
    cases hf : b.tree.finishNode with
    | error e => rw [hf] at h2; cases h2
    | ok t =>
      rw [hf] at h2
      have : b0 = { b with state := .normal, tree := t } := by cases h2; rfl
      rw [this]; rfl

theorem Norm.facts {b b0 : Builder} (h : Norm b b0) :
    b0.state = .normal ∧ b0.source = b.source ∧ b0.tokens = b.tokens ∧ b0.index = b.index ∧
      b0.tree.errors = b.tree.errors := by
  obtain ⟨h1, h2⟩ := h
  unfold Builder.flush at h2
  cases hs : b.state with
  | pendingEnter => exact absurd hs h1
  | normal => rw [hs] at h2; simp only [Except.ok.injEq] at h2; rw [← h2]; exact ⟨rfl, rfl, rfl, rfl, rfl⟩
  | pendingExit =>
    rw [hs] at h2
    simp only [Builder.sinkFinish, TreeBuilder.finishNode] at h2
    split at h2
    · cases h2
    · split at h2
      · cases h2; exact ⟨rfl, rfl, rfl, rfl, rfl⟩
      · cases h2

theorem Norm.of_normal {b : Builder} (h : b.state = .normal) : Norm b b := by
  refine ⟨by rw [h]; simp, ?_⟩
  unfold Builder.flush
  rw [h]
  simp only [Except.ok.injEq]
  rw [← h]

theorem finishNode_error {t t' : TreeBuilder} (e : PError) (h : t.finishNode = .ok t') :
    (t.error e).finishNode = .ok (t'.error e) := by
  obtain ⟨ps, cs, es⟩ := t
  cases ps with
  | nil => cases h
  | cons p ps =>
    obtain ⟨k, first⟩ := p
    by_cases hle : first ≤ cs.length
    · simp only [TreeBuilder.finishNode, if_pos hle] at h
      cases h
      exact if_pos hle
    · simp only [TreeBuilder.finishNode, if_neg hle] at h
      cases h

theorem Norm.error {b b0 : Builder} (h : Norm b b0) (e : PError) :
    Norm { b with tree := b.tree.error e } { b0 with tree := b0.tree.error e } := by
  obtain ⟨h1, h2⟩ := h
  refine ⟨h1, ?_⟩
  unfold Builder.flush at h2 ⊢
  cases hs : b.state with
  | pendingEnter => exact absurd hs h1
  | normal => rw [hs] at h2; simp only [Except.ok.injEq] at h2 ⊢; rw [← h2]
  | pendingExit =>
    rw [hs] at h2
    simp only [Builder.sinkFinish] at h2 ⊢
    cases hf : b.tree.finishNode with
    | error x => rw [hf] at h2; cases h2
    | ok t =>
      rw [hf] at h2
      rw [finishNode_error e hf]
      cases h2
      rfl

theorem foldlM_step_cons {b b' : Builder} {s : Step} {ss : List Step} (h : b.step s = .ok b') :
    (s :: ss).foldlM Builder.step b = ss.foldlM Builder.step b' := by
  rw [List.foldlM_cons, h]; rfl

/-- The builder on a balanced list of events that leaves some token. -/
theorem build_spec {source : List Char} {T : List Token} {ws : List (List Char)} (hb : Build source T ws)
    {h n e : Nat} {evs : List Event} (hbal : Balanced h n e evs) {b b0 : Builder} (hn : Norm b b0)
    (hs : b.source = source) (ht : b.tokens = T) {R : List Token}
    (hc : consume evs (T.drop b.index) = some R) (hR : dw R ≠ []) :
    ∃ b' b0', (evs.filterMap Event.toStep).foldlM Builder.step b = .ok b' ∧ Norm b' b0' ∧
      dw (T.drop b0'.index) = dw R ∧
      ∃ new, Grew ws new (errsOf evs) b0 b0' ∧ Green.heights new ≤ h ∧ Green.nestings new ≤ n := by
  induction hbal generalizing b b0 R with
  | nil h n =>
    refine ⟨b, b0, rfl, hn, ?_, [], Grew.refl ws b0, by simp [Green.heights], by simp [Green.nestings]⟩
    simp only [consume, Option.some.injEq] at hc
    rw [hn.facts.2.2.2.1, hc]
  | @tok h n e es k m hm hm2 hb' ih =>
    obtain ⟨f1, f2, f3, f4, f5⟩ := hn.facts
    have hbb : Build b0.source b0.tokens ws := by rw [f2, f3, hs, ht]; exact hb
    simp only [consume] at hc
    split at hc
    case isFalse => cases hc
    next hcond =>
    have hne : dw (T.drop b.index) ≠ [] := by
      intro hx
      have h1 := hcond.1
      have hx' : List.dropWhile (fun t => t.kind.isTrivia) (T.drop b.index) = [] := hx
      rw [hx'] at h1
      simp at h1
      omega
    have hdrop : (dw (T.drop b.index)).drop m ≠ [] := by
      intro hx
      have hx' : (List.dropWhile (fun t => t.kind.isTrivia) (T.drop b.index)).drop m = [] := hx
      rw [hx'] at hc
      have := consume_nil hc
      rw [this] at hR
      exact hR rfl
    obtain ⟨b1, g1, g2, g3, new1, g4, g5, g6⟩ := eatTrivias_spec hbb (by rw [f3, f4, ht]; exact hne)
    rw [f3, f4, ht] at g3
    have hT1 : b1.tokens = T := by rw [g4.tokens, f3, ht]
    have hlt : b1.index + m < b1.tokens.length := by
      rw [← g3, List.drop_drop] at hdrop
      apply Classical.byContradiction
      intro hx
      exact hdrop (List.drop_eq_nil_of_le (by omega))
    obtain ⟨b2, k1, k2, k3, w, k4⟩ := doToken_spec (by rw [g4.source, g4.tokens]; exact hbb) k hlt
    have hst : b.step (.token k m) = .ok b2 := by
      simp only [Builder.step, Builder.token, hn.flush]
      have hb0 : ({ b0 with state := .normal } : Builder) = b0 := by rw [← f1]
      show (({ b0 with state := .normal } : Builder).eatTrivias >>= fun b => b.doToken k m) = _
      rw [hb0, g1]
      exact k1
    have hn2 : Norm b2 b2 := Norm.of_normal (by rw [k3, g2, f1])
    have hc2 : consume es (T.drop b2.index) = some R := by
      have : T.drop b2.index = (dw (T.drop b.index)).drop m := by
        rw [← g3, hT1, List.drop_drop, k2]
      rw [this]
      exact hc
    obtain ⟨b3, b3', r1, r2, r3, new3, r4, r5, r6⟩ := ih hn2 (by rw [k4.source, g4.source, f2, hs])
      (by rw [k4.tokens, hT1]) hc2 hR
    refine ⟨b3, b3', ?_, r2, r3, _, (g4.trans k4).trans r4, ?_, ?_⟩
    · rw [List.filterMap_cons]
      exact (foldlM_step_cons hst).trans r1
    · simp [Green.heights_append, Green.heights, Green.height, g5]; exact r5
    · simp [Green.nestings_append, Green.nestings, Green.nesting, g6]; exact r6
  | @err h n e es x hb' ih =>
    have hn1 := hn.error x
    obtain ⟨b3, b3', r1, r2, r3, new3, r4, r5, r6⟩ := ih hn1 hs ht (by simpa [consume] using hc) hR
    refine ⟨b3, b3', ?_, r2, r3, new3, ?_, r5, r6⟩
    · rw [List.filterMap_cons]
      exact (foldlM_step_cons rfl).trans r1
    · have he : errsOf (.error x :: es) = [x] ++ errsOf es := rfl
      rw [he]
      exact ⟨r4.source, r4.tokens, r4.le, r4.parents, r4.children,
        by rw [r4.errors]; simp [TreeBuilder.error], r4.text⟩
  | @node h n h' n' e e' body es k hk hh hnn hbody hrest ih1 ih2 =>
    obtain ⟨f1, f2, f3, f4, f5⟩ := hn.facts
    have hbb : Build b0.source b0.tokens ws := by rw [f2, f3, hs, ht]; exact hb
    have hc' : (consume body (T.drop b.index)).bind (consume es) = some R := by
      have : consume (.start k :: (body ++ .finish :: es)) (T.drop b.index) =
          consume (body ++ .finish :: es) (T.drop b.index) := rfl
      rw [this, consume_append_events] at hc
      exact hc
    cases hc1 : consume body (T.drop b.index) with
    | none => rw [hc1] at hc'; cases hc'
    | some R1 =>
    rw [hc1] at hc'
    simp only [Option.bind_some] at hc'
    have hR1 : dw R1 ≠ [] := by
      intro hx
      obtain ⟨R', h1, h2⟩ := consume_dw (T' := []) (by rw [hx]; rfl) hc'
      have := consume_nil h1
      rw [this] at h2
      exact hR h2
    have hne : dw (T.drop b.index) ≠ [] := by
      intro hx
      obtain ⟨R', h1, h2⟩ := consume_dw (T' := []) (by rw [hx]; rfl) hc1
      have := consume_nil h1
      rw [this] at h2
      exact hR1 h2
    obtain ⟨b1, g1, g2, g3, new1, g4, g5, g6⟩ := eatTrivias_spec hbb (by rw [f3, f4, ht]; exact hne)
    rw [f3, f4, ht] at g3
    have hT1 : b1.tokens = T := by rw [g4.tokens, f3, ht]
    have hS1 : b1.source = source := by rw [g4.source, f2, hs]
    -- enter
    let b2 : Builder := { b1 with tree := b1.tree.startNode k }
    have hst : b.step (.enter k) = .ok b2 := by
      have hb0 : ({ b0 with state := .normal } : Builder) = b0 := by rw [← f1]
      have h1 : b.enter k = (b.flush .normal >>= fun b => b.eatTrivias >>= fun b =>
          pure { b with tree := b.tree.startNode k }) := by
        unfold Builder.enter
        split
        · next hx => exact absurd hx hn.1
        · rfl
      show b.enter k = _
      rw [h1, hn.flush, hb0]
      show (b0.eatTrivias >>= fun b => pure { b with tree := b.tree.startNode k }) = _
      rw [g1]
      rfl
    have hn2 : Norm b2 b2 := Norm.of_normal (by show b1.state = _; rw [g2, f1])
    -- the body
    obtain ⟨R1', c1, c2⟩ := consume_dw (T' := T.drop b1.index)
      (by rw [hT1] at g3; rw [g3, dw_dw]) hc1
    obtain ⟨b3, b3', r1, r2, r3, new3, r4, r5, r6⟩ := ih1 (b := b2) hn2 hS1 hT1 c1 (by rw [← c2]; exact hR1)
    obtain ⟨x1, x2, x3, x4, x5⟩ := r2.facts
    -- exit
    let b4 : Builder := { b3' with state := .pendingExit }
    have hst4 : b3.step .exit = .ok b4 := r2.flush .pendingExit
    have hpar : b3'.tree.parents = (k, b1.tree.children.length) :: b1.tree.parents := r4.parents
    have hchi : b3'.tree.children = b1.tree.children ++ new3 := r4.children
    let b5 : Builder := { b3' with
      tree := { b3'.tree with
        parents := b1.tree.parents
        children := b1.tree.children ++ [.node k new3] } }
    have hn4 : Norm b4 b5 := by
      refine ⟨by simp [b4], ?_⟩
      show ({ b4 with state := .normal } : Builder).sinkFinish = _
      have : b3'.tree.finishNode = .ok { b3'.tree with
          parents := b1.tree.parents
          children := b1.tree.children ++ [.node k new3] } := by
        simp [TreeBuilder.finishNode, hpar, hchi]
      simp only [Builder.sinkFinish, b4, this, b5]
      show Except.ok _ = _
      congr 1
      rw [← x1]
    have hg5 : Grew ws [.node k new3] (errsOf body) b1 b5 :=
      ⟨r4.source, r4.tokens, r4.le, rfl, rfl, r4.errors, by
        simp only [Green.texts, Green.text, List.append_nil]
        exact r4.text⟩
    -- the rest
    obtain ⟨R2, d1, d2⟩ := consume_dw (T' := T.drop b4.index)
      (by show _ = dw (T.drop b3'.index); rw [r3, c2]) hc'
    obtain ⟨b6, b6', s1, s2, s3, new6, s4, s5, s6⟩ := ih2 (b := b4) hn4 (by show b3'.source = _; rw [r4.source]; exact hS1)
      (by show b3'.tokens = _; rw [r4.tokens]; exact hT1) d1 (by rw [← d2]; exact hR)
    refine ⟨b6, b6', ?_, s2, by rw [s3, d2], (new1 ++ [.node k new3]) ++ new6, ?_, ?_, ?_⟩
    rotate_left
    · have he : errsOf (.start k :: (body ++ .finish :: es)) = [] ++ errsOf body ++ errsOf es := by
        simp [errsOf]
      rw [he]
      exact (g4.trans hg5).trans s4
    · simp only [Green.heights_append, Green.heights, Green.height, g5]
      omega
    · simp only [Green.nestings_append, Green.nestings, Green.nesting, g6]
      have : nestOf k = if k = .ARRAY ∨ k = .INLINE_TABLE then 1 else 0 := rfl
      rw [← this]
      omega
    · rw [List.filterMap_cons, show Event.toStep (.start k) = some (.enter k) from if_pos hk,
        List.filterMap_append, List.filterMap_cons]
      show (Step.enter k :: (body.filterMap Event.toStep ++ Step.exit :: es.filterMap Event.toStep)).foldlM Builder.step b = _
      rw [foldlM_step_cons hst, List.foldlM_append, r1]
      show (Step.exit :: es.filterMap Event.toStep).foldlM Builder.step b3 = _
      rw [foldlM_step_cons hst4]
      exact s1

/-- The tree of a whole document. -/
theorem buildGreenTree_spec {source : List Char} {T : List Token} {ws : List (List Char)} (hb : Build source T ws)
    {h n e : Nat} {evs : List Event} (hbal : Balanced h n e evs) {R : List Token} {x : Token}
    (hc : consume evs T = some R) (hR : dw R = [x]) (he : e ≤ 2 ^ 31) (hx : ∃ pre, T = pre ++ [x])
    (hxl : x.span.start = utf8Len source) (hel : (errsOf evs).length = e) :
    ∃ new, buildGreenTree source T (process (.start ROOT :: (evs ++ [.finish]))) =
        .ok (.node ROOT new, errsOf evs) ∧ Green.texts new = source ∧
      Green.heights new ≤ h ∧ Green.nestings new ≤ n := by
  have hsteps : (process (.start ROOT :: (evs ++ [.finish]))).steps =
      .ok (.enter ROOT :: (evs.filterMap Event.toStep ++ [.exit])) := by
    rw [steps_process]
    · simp [Event.toStep]
    · intro k m hm
      simp at hm
      have := hbal.pos k m hm
      omega
    · simp [errsOf] at hel ⊢
      omega
  let b1 : Builder := { Builder.new source T with
    state := .normal
    tree := TreeBuilder.new.startNode ROOT }
  have hst : (Builder.new source T).step (.enter ROOT) = .ok b1 := rfl
  obtain ⟨b2, b2', r1, r2, r3, new2, r4, r5, r6⟩ := build_spec hb hbal (b := b1) (b0 := b1) (Norm.of_normal rfl)
    rfl rfl (R := R) (by simpa [b1, Builder.new] using hc) (by rw [hR]; simp)
  let b3 : Builder := { b2' with state := .pendingExit }
  have hst3 : b2.step .exit = .ok b3 := r2.flush .pendingExit
  let b4 : Builder := { b2' with state := .normal }
  have hS : b4.source = source := r4.source
  have hT : b4.tokens = T := r4.tokens
  obtain ⟨b5, g1, g2, g3, new5, g4, g5, g6⟩ := eatTrivias_spec (b := b4) (ws := ws)
    (by rw [hS, hT]; exact hb) (by rw [hT]; show dw (T.drop b2'.index) ≠ []; rw [r3, hR]; simp)
  have hT5 : b5.tokens = T := g4.tokens.trans hT
  have hall : Grew ws (new2 ++ new5) (errsOf evs) b1 b5 := by
    have h4 : Grew ws new2 (errsOf evs) b1 b4 :=
      ⟨r4.source, r4.tokens, r4.le, r4.parents, r4.children, r4.errors, r4.text⟩
    simpa using h4.trans g4
  have hpar : b5.tree.parents = [(ROOT, 0)] := hall.parents
  have hchi : b5.tree.children = new2 ++ new5 := by
    rw [hall.children]; rfl
  have herr : b5.tree.errors = errsOf evs := by
    rw [hall.errors]; rfl
  refine ⟨new2 ++ new5, ?_, ?_, ?_, ?_⟩
  · unfold buildGreenTree
    rw [hsteps]
    show ((Step.enter ROOT :: (evs.filterMap Event.toStep ++ [.exit])).foldlM Builder.step _ >>= _) = _
    rw [foldlM_step_cons hst, List.foldlM_append, r1]
    show (([Step.exit].foldlM Builder.step b2) >>= _) = _
    rw [foldlM_step_cons hst3]
    show (b4.eatTrivias >>= fun b => b.sinkFinish) >>= _ = _
    rw [g1]
    show (b5.sinkFinish >>= fun b => b.tree.finish) = _
    have : b5.tree.finishNode = .ok ⟨[], [.node ROOT (new2 ++ new5)], errsOf evs⟩ := by
      simp [TreeBuilder.finishNode, hpar, hchi, herr]
    simp only [Builder.sinkFinish, this]
    rfl
  · rw [hall.text]
    -- the last token is empty
    obtain ⟨pre, rfl⟩ := hx
    have hidx : (pre ++ [x]).drop b5.index = [x] := by
      rw [← hT5, g3, hT]
      show dw ((pre ++ [x]).drop b2'.index) = _
      rw [r3, hR]
    have hi5 : b5.index = pre.length := by
      have := congrArg List.length hidx
      simp at this
      omega
    have hcut := hb.cut
    obtain ⟨wa, wb, rfl, ca, cb⟩ := Cut.append.mp hcut
    obtain ⟨w, wb', rfl, hsp, hn⟩ := cb
    cases hn
    have hla := ca.length
    have hw : utf8Len w = 0 := by
      rw [hsp] at hxl
      rw [← hb.flat] at hxl
      simp at hxl
      omega
    have hw' : w = [] := by
      apply Classical.byContradiction
      intro hne
      have := utf8Len_pos hne
      omega
    rw [← hb.flat, hw']
    simp [b1, Builder.new, hi5, ← hla]
  · rw [Green.heights_append, g5]; simpa using r5
  · rw [Green.nestings_append, g6]; simpa using r6

end Tombi
