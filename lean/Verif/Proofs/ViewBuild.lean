import Verif.Proofs.ViewMain
import Verif.Model.AstDoc
import Verif.Spec.Blanks
/-! The tree of the parser is the tree of the parser on views, with blanks put in. -/
namespace Tombi
open SyntaxKind View PM
open Tombi.Formatter (kindOf childrenOf)

/-! ### Trees without their blanks -/

theorem stripL_append (a b : List Green) : stripL (a ++ b) = stripL a ++ stripL b := by
  induction a with
  | nil => rfl
  | cons g gs ih =>
    by_cases h : isBlank g = true
    · simp [stripL, h, ih]
    · simp [stripL, h, ih]

theorem stripL_blanks {a : List Green} (h : ∀ g ∈ a, isBlank g = true) : stripL a = [] := by
  induction a with
  | nil => rfl
  | cons g gs ih => simp [stripL, h g (by simp), ih fun x hx => h x (by simp [hx])]

/-- no two blanks touch -/
def Apart : List Green → Prop
  | g :: h :: gs => ¬ (isBlank g = true ∧ isBlank h = true) ∧ Apart (h :: gs)
  | _ => True

theorem Apart.cons {g : Green} {gs : List Green} (hg : isBlank g = false) : Apart (g :: gs) ↔ Apart gs := by
  cases gs with
  | nil => simp [Apart]
  | cons h gs => simp [Apart, hg]

theorem Apart.tail {g : Green} {gs : List Green} (h : Apart (g :: gs)) : Apart gs := by
  cases gs with
  | nil => trivial
  | cons h gs => exact h.2

theorem Apart.split {a b : List Green} {g : Green} (hg : isBlank g = false) :
    Apart (a ++ g :: b) ↔ Apart a ∧ Apart b := by
  induction a with
  | nil => rw [List.nil_append, Apart.cons hg]; simp [Apart]
  | cons x a ih =>
    cases a with
    | nil => rw [List.cons_append, List.nil_append] at *; simp [Apart, hg, Apart.cons hg]
    | cons y a =>
      simp only [List.cons_append] at ih ⊢
      simp only [Apart, ih, and_assoc]

theorem Apart.short {a : List Green} (h : a.length ≤ 1) : Apart a := by
  match a with
  | [] => trivial
  | [_] => trivial
  | _ :: _ :: _ => simp at h

mutual
/-- blanks stand alone, and never first or last in a node -/
def Tidy : Green → Prop
  | .token _ _ => True
  | .node _ cs => Apart cs ∧ (∀ g, cs.head? = some g → isBlank g = false) ∧
      (∀ g, cs.getLast? = some g → isBlank g = false) ∧ TidyL cs
def TidyL : List Green → Prop
  | [] => True
  | g :: gs => Tidy g ∧ TidyL gs
end

theorem TidyL.append {a b : List Green} : TidyL (a ++ b) ↔ TidyL a ∧ TidyL b := by
  induction a with
  | nil => simp [TidyL]
  | cons g gs ih => simp [TidyL, ih, and_assoc]

theorem TidyL.blanks {a : List Green} (h : ∀ g ∈ a, isBlank g = true) : TidyL a := by
  induction a with
  | nil => trivial
  | cons g gs ih =>
    refine ⟨?_, ih fun x hx => h x (by simp [hx])⟩
    cases g with
    | token k w => trivial
    | node k cs => have := h (.node k cs) (by simp); cases this

mutual
/-- kinds as in a tree without blanks, and bare keys are one token -/
def Clean : Green → Prop
  | .token k _ => k.isTrivia = false
  | .node k cs => (k ≠ TOMBSTONE ∧ (k = BARE_KEY → ∃ k' w, cs = [.token k' w])) ∧ CleanL cs
def CleanL : List Green → Prop
  | [] => True
  | g :: gs => Clean g ∧ CleanL gs
end

theorem CleanL.append {a b : List Green} : CleanL (a ++ b) ↔ CleanL a ∧ CleanL b := by
  induction a with
  | nil => simp [CleanL]
  | cons g gs ih => simp [CleanL, ih, and_assoc]

/-! ### Tokens -/

theorem Covers.split {src : List Char} {pre : List Token} {ls : List (SyntaxKind × List Char)} (h : Covers src pre ls)
    {la lb : List (SyntaxKind × List Char)} (hl : ls = la ++ lb) :
    ∃ a b, pre = a ++ b ∧ Covers src a la ∧ Covers src b lb := by
  induction h generalizing la lb with
  | nil =>
    cases la with
    | nil => cases lb with
      | nil => exact ⟨[], [], rfl, .nil, .nil⟩
      | cons => cases hl
    | cons => cases hl
  | triv ht _ ih =>
    obtain ⟨a, b, rfl, h1, h2⟩ := ih hl
    exact ⟨_ :: a, b, rfl, .triv ht h1, h2⟩
  | one ht hk hc ih =>
    cases la with
    | nil =>
      simp only [List.nil_append] at hl
      subst hl
      exact ⟨[], _, rfl, .nil, .one ht hk hc⟩
    | cons x la =>
      simp only [List.cons_append, List.cons.injEq] at hl
      obtain ⟨rfl, hl⟩ := hl
      obtain ⟨a, b, rfl, h1, h2⟩ := ih hl
      exact ⟨_ :: a, b, rfl, .one ht hk h1, h2⟩
  | two ht hu hk hc ih =>
    cases la with
    | nil =>
      simp only [List.nil_append] at hl
      subst hl
      exact ⟨[], _, rfl, .nil, .two ht hu hk hc⟩
    | cons x la =>
      simp only [List.cons_append, List.cons.injEq] at hl
      obtain ⟨rfl, hl⟩ := hl
      obtain ⟨a, b, rfl, h1, h2⟩ := ih hl
      exact ⟨_ :: _ :: a, b, rfl, .two ht hu hk h1, h2⟩

theorem dw_cons_triv {t : Token} {ts : List Token} (h : t.kind.isTrivia = true) : dw (t :: ts) = dw ts := by
  simp [dw, h]

theorem dw_cons_sig {t : Token} {ts : List Token} (h : t.kind.isTrivia = false) : dw (t :: ts) = t :: ts := by
  simp [dw, h]

theorem Covers.none {src : List Char} {pre : List Token} (h : Covers src pre []) (post : List Token) :
    dw (pre ++ post) = dw post := by
  generalize hl : ([] : List (SyntaxKind × List Char)) = ls at h
  induction h with
  | nil => rfl
  | triv ht _ ih => rw [List.cons_append, dw_cons_triv ht]; exact ih hl
  | one => cases hl
  | two => cases hl

/-- the tokens of one leaf -/
theorem Covers.leaf {src : List Char} {pre : List Token} {k : SyntaxKind} {w : List Char}
    (h : Covers src pre [(k, w)]) (post : List Token) :
    ∃ m X, dw (pre ++ post) = m ++ X ∧ dw X = dw post ∧ m.length = rawOf k ∧
      (m.map (textAt src)).flatten = w ∧ m ≠ [] := by
  generalize hl : [(k, w)] = ls at h
  induction h with
  | nil => cases hl
  | triv ht _ ih => rw [List.cons_append, dw_cons_triv ht]; exact ih hl
  | @one t ts k' ls ht hk hc _ =>
    simp only [List.cons.injEq, Prod.mk.injEq] at hl
    obtain ⟨⟨rfl, rfl⟩, rfl⟩ := hl
    exact ⟨[t], ts ++ post, by rw [List.cons_append, dw_cons_sig ht]; rfl, hc.none post, by simp [hk], by simp, by simp⟩
  | @two t u ts k' ls ht hu hk hc _ =>
    simp only [List.cons.injEq, Prod.mk.injEq] at hl
    obtain ⟨⟨rfl, rfl⟩, rfl⟩ := hl
    exact ⟨[t, u], ts ++ post, by rw [List.cons_append, dw_cons_sig ht]; rfl, hc.none post, by simp [hk], by simp, by simp⟩

theorem dw_append_ne {a b : List Token} (h : dw b ≠ []) : dw (a ++ b) ≠ [] := by
  induction a with
  | nil => exact h
  | cons t ts ih =>
    by_cases ht : t.kind.isTrivia = true
    · rw [List.cons_append, dw_cons_triv ht]; exact ih
    · rw [List.cons_append, dw_cons_sig (by simpa using ht)]; simp

theorem Cut.textAt {src : List Char} {T : List Token} {ws : List (List Char)} (hb : Build src T ws) {i : Nat} {t : Token}
    (ht : T[i]? = some t) : ws[i]? = some (textAt src t) := by
  have hlen := hb.cut.length
  have hi : i < T.length := (List.getElem?_eq_some_iff.mp ht).1
  have hsplit : T = T.take i ++ t :: T.drop (i + 1) := by
    rw [← (List.getElem?_eq_some_iff.mp ht).2, List.getElem_cons_drop, List.take_append_drop]
  have hcut := hb.cut
  rw [hsplit] at hcut
  obtain ⟨wa, wb, hw, h1, h2⟩ := Cut.append.mp hcut
  obtain ⟨w, ws', rfl, h3, h4⟩ := h2
  have hla : wa.length = i := by rw [h1.length]; simp; omega
  have hflat := hb.flat
  rw [hw] at hflat
  have : byteSlice t.span.start t.span.stop src = some w := by
    rw [h3, ← hflat]
    simp only [List.flatten_append, List.flatten_cons, Nat.zero_add]
    have := byteSlice_append wa.flatten w ws'.flatten
    simpa using this
  rw [hw, List.getElem?_append_right (by omega), hla]
  simp [Tombi.textAt, this]

theorem drop_textAt {src : List Char} {T : List Token} {ws : List (List Char)} (hb : Build src T ws) {i : Nat}
    {m X : List Token} (h : T.drop i = m ++ X) : (ws.drop i).take m.length = m.map (textAt src) := by
  induction m generalizing i with
  | nil => simp
  | cons t m ih =>
    rw [List.cons_append] at h
    obtain ⟨h1, h2⟩ := drop_cons h
    have h3 := Cut.textAt hb h1
    have hi := (List.getElem?_eq_some_iff.mp h3)
    obtain ⟨hi, he⟩ := hi
    rw [List.drop_eq_getElem_cons hi, List.length_cons, List.take_succ_cons, ih h2, he]
    rfl

/-! ### The builder -/

theorem eatTriviasLoop_blanks (fuel : Nat) {b b' : Builder}
    (h : Builder.eatTriviasLoop fuel b = .ok b') :
    ∃ new, b'.tree.children = b.tree.children ++ new ∧ (∀ g ∈ new, isBlank g = true) ∧
      ∃ A, b.tokens.drop b.index = A ++ b'.tokens.drop b'.index ∧ A.length = new.length ∧
        (∀ t ∈ A, t.kind.isTrivia = true) ∧ b'.tokens = b.tokens := by
  induction fuel generalizing b with
  | zero => cases h
  | succ fuel ih =>
    rw [Builder.eatTriviasLoop] at h
    cases ht : b.tokens[b.index]? with
    | none =>
      rw [ht] at h
      cases h
      exact ⟨[], by simp, by simp, [], by simp, rfl, by simp, rfl⟩
    | some t =>
      rw [ht] at h
      dsimp only at h
      by_cases hk : t.kind.isTrivia = true
      · rw [if_pos hk] at h
        cases hd : b.doToken t.kind 1 with
        | error e => rw [hd] at h; cases h
        | ok b1 =>
          rw [hd] at h
          obtain ⟨new, h1, h2, A, h3, h4, h5, h6⟩ := ih h
          have hb1 : ∃ w, b1 = { b with index := b.index + 1, tree := b.tree.token t.kind w } := by
            unfold Builder.doToken at hd
            split at hd
            · split at hd
              · cases hd; exact ⟨_, rfl⟩
              · cases hd
            · cases hd
          obtain ⟨w, rfl⟩ := hb1
          refine ⟨.token t.kind w :: new, ?_, ?_, t :: A, ?_, by simp [h4], ?_, h6⟩
          · rw [h1]; simp [TreeBuilder.token]
          · intro g hg
            rcases List.mem_cons.mp hg with rfl | hg
            · exact hk
            · exact h2 g hg
          · obtain ⟨hi, he⟩ := List.getElem?_eq_some_iff.mp ht
            rw [List.drop_eq_getElem_cons hi, he, List.cons_append]
            exact congrArg _ h3
          · intro x hx
            rcases List.mem_cons.mp hx with rfl | hx
            · exact hk
            · exact h5 x hx
      · rw [if_neg hk] at h
        cases h
        exact ⟨[], by simp, by simp, [], by simp, rfl, by simp, rfl⟩

theorem NoAdj.drop {T : List Token} (h : NoAdj T) (n : Nat) : NoAdj (T.drop n) := by
  induction n generalizing T with
  | zero => exact h
  | succ n ih =>
    cases T with
    | nil => exact h
    | cons t ts => exact ih h.tail

theorem NoAdj.prefix_le {A B : List Token} (h : NoAdj (A ++ B)) (hA : ∀ t ∈ A, t.kind.isTrivia = true) : A.length ≤ 1 := by
  match A with
  | [] => simp
  | [_] => simp
  | t :: u :: A => exact absurd ⟨hA t (by simp), hA u (by simp)⟩ h.1

/-- `eat_trivias` puts in at most one blank -/
theorem eatTrivias_one {ws : List (List Char)} {b : Builder} (hb : Build b.source b.tokens ws)
    (hne : dw (b.tokens.drop b.index) ≠ []) (hadj : NoAdj b.tokens) :
    ∃ b', b.eatTrivias = .ok b' ∧ b'.state = b.state ∧ b'.tokens.drop b'.index = dw (b.tokens.drop b.index) ∧
      ∃ new, Grew ws new [] b b' ∧ (∀ g ∈ new, isBlank g = true) ∧ new.length ≤ 1 ∧
        (dw (b.tokens.drop b.index) = b.tokens.drop b.index → new = []) := by
  obtain ⟨b', h1, h2, h3, new, h4, -, -⟩ := eatTrivias_spec hb hne
  obtain ⟨new', g1, g2, A, g3, g4, g5, g6⟩ := eatTriviasLoop_blanks _ h1
  have : new = new' := by
    have := h4.children
    rw [g1] at this
    exact (List.append_cancel_left this).symm
  subst this
  refine ⟨b', h1, h2, h3, new, h4, g2, ?_, ?_⟩
  · have := hadj.drop b.index
    rw [g3] at this
    rw [← g4]
    exact this.prefix_le g5
  · intro hx
    rw [h3, hx] at g3
    have := congrArg List.length g3
    rw [List.length_append] at this
    exact List.length_eq_zero_iff.mp (by omega)

/-- The builder on one tree. -/
def BuildsOne (src : List Char) (T : List Token) (ws : List (List Char)) (g : Green) : Prop :=
  ∀ b b0 pre post, Norm b b0 → b.source = src → b.tokens = T → dw (T.drop b.index) = dw (pre ++ post) →
    Covers src pre (leaves g) → dw post ≠ [] → Clean g →
    ∃ b' b0', ((evsOf g).filterMap Event.toStep).foldlM Builder.step b = .ok b' ∧ Norm b' b0' ∧
      dw (T.drop b0'.index) = dw post ∧
      ∃ L g', Grew ws (L ++ [g']) [] b0 b0' ∧ (∀ x ∈ L, isBlank x = true) ∧ L.length ≤ 1 ∧
        (dw (T.drop b.index) = T.drop b.index → L = []) ∧ isBlank g' = false ∧ strip g' = g ∧ Tidy g'

/-- The builder on a list of trees. -/
def BuildsAll (src : List Char) (T : List Token) (ws : List (List Char)) (F : List Green) : Prop :=
  ∀ b b0 pre post, Norm b b0 → b.source = src → b.tokens = T → dw (T.drop b.index) = dw (pre ++ post) →
    Covers src pre (leavesL F) → dw post ≠ [] → CleanL F →
    ∃ b' b0', ((evsOfL F).filterMap Event.toStep).foldlM Builder.step b = .ok b' ∧ Norm b' b0' ∧
      dw (T.drop b0'.index) = dw post ∧
      ∃ new, Grew ws new [] b0 b0' ∧ stripL new = F ∧ TidyL new ∧ Apart new ∧
        (∀ g, new.getLast? = some g → isBlank g = false) ∧
        (dw (T.drop b.index) = T.drop b.index → ∀ g, new.head? = some g → isBlank g = false)

theorem builds_token {src : List Char} {T : List Token} {ws : List (List Char)} (hb : Build src T ws) (hadj : NoAdj T)
    (k : SyntaxKind) (w : List Char) : BuildsOne src T ws (.token k w) := by
  intro b b0 pre post hn hs ht hd hc hne hcl
  obtain ⟨f1, f2, f3, f4, f5⟩ := hn.facts
  obtain ⟨m, X, m1, m2, m3, m4, m5⟩ := Covers.leaf (by simpa [leaves] using hc) post
  have hbb : Build b0.source b0.tokens ws := by rw [f2, f3, hs, ht]; exact hb
  have hdne : dw (T.drop b.index) ≠ [] := by rw [hd]; exact dw_append_ne hne
  obtain ⟨b1, g1, g2, g3, L, g4, g5, g6, g7⟩ := eatTrivias_one hbb (by rw [f3, f4, ht]; exact hdne)
    (by rw [f3, ht]; exact hadj)
  rw [f3, f4, ht] at g3 g7
  have hT1 : b1.tokens = T := by rw [g4.tokens, f3, ht]
  have hdrop : T.drop b1.index = m ++ X := by rw [← m1, ← hd, ← g3, hT1]
  have hXne : X ≠ [] := by
    rintro rfl
    exact hne (by rw [← m2]; rfl)
  have hlt : b1.index + rawOf k < b1.tokens.length := by
    have := congrArg List.length hdrop
    simp at this
    have := List.length_pos_iff.mpr hXne
    rw [hT1]
    omega
  obtain ⟨b2, k1, k2, k3, w', k4⟩ := doToken_spec (by rw [g4.source, g4.tokens]; exact hbb) k hlt
  have hw : w' = w := by
    have h1 := k4.text
    rw [k2, show b1.index + rawOf k - b1.index = rawOf k by omega, ← m3, drop_textAt hb hdrop, m4] at h1
    simpa [Green.texts, Green.text] using h1
  subst hw
  have hst : b.step (.token k (rawOf k)) = .ok b2 := by
    simp only [Builder.step, Builder.token, hn.flush]
    have hb0 : ({ b0 with state := .normal } : Builder) = b0 := by rw [← f1]
    show (({ b0 with state := .normal } : Builder).eatTrivias >>= fun b => b.doToken k (rawOf k)) = _
    rw [hb0, g1]
    exact k1
  refine ⟨b2, b2, ?_, Norm.of_normal (by rw [k3, g2, f1]), ?_, L, .token k w', by simpa using g4.trans k4, g5, g6, g7,
    hcl, rfl, trivial⟩
  · show List.foldlM Builder.step b [Step.token k (rawOf k)] = _
    rw [foldlM_step_cons hst]
    rfl
  · rw [k2, ← List.drop_drop, hdrop, ← m3, List.drop_left, m2]

theorem builds_node {src : List Char} {T : List Token} {ws : List (List Char)} (hb : Build src T ws) (hadj : NoAdj T)
    (k : SyntaxKind) {cs : List Green} (ih : BuildsAll src T ws cs) : BuildsOne src T ws (.node k cs) := by
  intro b b0 pre post hn hs ht hd hc hne hcl
  obtain ⟨f1, f2, f3, f4, f5⟩ := hn.facts
  have hbb : Build b0.source b0.tokens ws := by rw [f2, f3, hs, ht]; exact hb
  have hdne : dw (T.drop b.index) ≠ [] := by rw [hd]; exact dw_append_ne hne
  obtain ⟨b1, g1, g2, g3, L, g4, g5, g6, g7⟩ := eatTrivias_one hbb (by rw [f3, f4, ht]; exact hdne)
    (by rw [f3, ht]; exact hadj)
  rw [f3, f4, ht] at g3 g7
  have hT1 : b1.tokens = T := by rw [g4.tokens, f3, ht]
  have hS1 : b1.source = src := by rw [g4.source, f2, hs]
  let b2 : Builder := { b1 with tree := b1.tree.startNode k }
  have hst : b.step (.enter k) = .ok b2 := by
    have hb0 : ({ b0 with state := .normal } : Builder) = b0 := by rw [← f1]
    have h1 : b.enter k = (b.flush .normal >>= fun b => b.eatTrivias >>= fun b =>
        pure { b with tree := b.tree.startNode k }) := by
      unfold Builder.enter
      split
      · next hx => exact absurd hx hn.1
      · rfl
    show b.enter k = _
    rw [h1, hn.flush, hb0]
    show (b0.eatTrivias >>= fun b => pure { b with tree := b.tree.startNode k }) = _
    rw [g1]
    rfl
  have hn2 : Norm b2 b2 := Norm.of_normal (by show b1.state = _; rw [g2, f1])
  have hd2 : T.drop b2.index = dw (T.drop b.index) := by rw [← g3, hT1]
  obtain ⟨b3, b3', r1, r2, r3, new3, r4, r5, r6, r7, r8, r9⟩ := ih b2 b2 pre post hn2 hS1 hT1
    (by rw [hd2, dw_dw, hd]) (by simpa [leaves] using hc) hne hcl.2
  obtain ⟨x1, x2, x3, x4, x5⟩ := r2.facts
  let b4 : Builder := { b3' with state := .pendingExit }
  have hst4 : b3.step .exit = .ok b4 := r2.flush .pendingExit
  have hpar : b3'.tree.parents = (k, b1.tree.children.length) :: b1.tree.parents := r4.parents
  have hchi : b3'.tree.children = b1.tree.children ++ new3 := r4.children
  let b5 : Builder := { b3' with
    tree := { b3'.tree with
      parents := b1.tree.parents
      children := b1.tree.children ++ [.node k new3] } }
  have hn4 : Norm b4 b5 := by
    refine ⟨by simp [b4], ?_⟩
    show ({ b4 with state := .normal } : Builder).sinkFinish = _
    have : b3'.tree.finishNode = .ok { b3'.tree with
        parents := b1.tree.parents
        children := b1.tree.children ++ [.node k new3] } := by
      simp [TreeBuilder.finishNode, hpar, hchi]
    simp only [Builder.sinkFinish, b4, this, b5]
    show Except.ok _ = _
    congr 1
    rw [← x1]
  have hg5 : Grew ws [.node k new3] [] b1 b5 :=
    ⟨r4.source, r4.tokens, r4.le, rfl, rfl, r4.errors, by
      simp only [Green.texts, Green.text, List.append_nil]
      exact r4.text⟩
  refine ⟨b4, b5, ?_, hn4, r3, L, .node k new3, by simpa using g4.trans hg5, g5, g6, g7, rfl, ?_, ?_⟩
  · rw [evsOf, List.filterMap_cons, show Event.toStep (.start k) = some (.enter k) from if_pos hcl.1.1,
      List.filterMap_append]
    show (Step.enter k :: ((evsOfL cs).filterMap Event.toStep ++ [Step.exit])).foldlM Builder.step b = _
    rw [foldlM_step_cons hst, List.foldlM_append, r1]
    show ([Step.exit]).foldlM Builder.step b3 = _
    rw [foldlM_step_cons hst4]
    rfl
  · rw [strip, r5]
  · exact ⟨r7, r9 (by rw [hd2, dw_dw]), r8, r6⟩

theorem builds_nil {src : List Char} {T : List Token} {ws : List (List Char)} : BuildsAll src T ws [] := by
  intro b b0 pre post hn hs ht hd hc hne hcl
  refine ⟨b, b0, rfl, hn, ?_, [], Grew.refl ws b0, rfl, trivial, trivial, by simp, by simp⟩
  rw [hn.facts.2.2.2.1, hd]
  exact Covers.none hc post

theorem builds_cons {src : List Char} {T : List Token} {ws : List (List Char)} {g : Green} {F : List Green}
    (h1 : BuildsOne src T ws g) (h2 : BuildsAll src T ws F) : BuildsAll src T ws (g :: F) := by
  intro b b0 pre post hn hs ht hd hc hne hcl
  obtain ⟨a, c, rfl, c1, c2⟩ := Covers.split hc (la := leaves g) (lb := leavesL F) rfl
  obtain ⟨b1, b1', r1, r2, r3, L, g', r4, r5, r6, r7, r8, r9, r10⟩ := h1 b b0 a (c ++ post) hn hs ht
    (by rw [hd, List.append_assoc]) c1 (dw_append_ne hne) hcl.1
  obtain ⟨x1, x2, x3, x4, x5⟩ := r2.facts
  have y2 := r4.source
  have y3 := r4.tokens
  obtain ⟨z1, z2, z3, z4, z5⟩ := hn.facts
  obtain ⟨b2, b2', s1, s2, s3, new, s4, s5, s6, s7, s8, s9⟩ := h2 b1 b1' c post r2 (by rw [← x2, y2, z2, hs])
    (by rw [← x3, y3, z3, ht]) (by rw [← x4, r3]) c2 hne hcl.2
  refine ⟨b2, b2', ?_, s2, s3, (L ++ [g']) ++ new, by simpa using r4.trans s4, ?_, ?_, ?_, ?_, ?_⟩
  · rw [evsOfL, List.filterMap_append, List.foldlM_append, r1]
    exact s1
  · rw [stripL_append, stripL_append, stripL_blanks r5, s5]
    simp [stripL, r8, r9]
  · rw [TidyL.append, TidyL.append]
    exact ⟨⟨.blanks r5, r10, trivial⟩, s6⟩
  · rw [List.append_assoc]
    exact (Apart.split r8).mpr ⟨.short r6, s7⟩
  · intro x hx
    cases hnew : new with
    | nil =>
      rw [hnew] at hx
      simp at hx
      subst hx
      exact r8
    | cons y ys =>
      rw [List.getLast?_append, hnew] at hx
      rw [hnew] at s8
      apply s8 x
      rw [List.getLast?_cons] at hx ⊢
      simpa using hx
  · intro hx x hh
    rw [r7 hx] at hh
    simp at hh
    subst hh
    exact r8

mutual
theorem builds_one {src : List Char} {T : List Token} {ws : List (List Char)} (hb : Build src T ws) (hadj : NoAdj T) :
    ∀ g, BuildsOne src T ws g
  | .token k w => builds_token hb hadj k w
  | .node k cs => builds_node hb hadj k (builds_all hb hadj cs)
theorem builds_all {src : List Char} {T : List Token} {ws : List (List Char)} (hb : Build src T ws) (hadj : NoAdj T) :
    ∀ F, BuildsAll src T ws F
  | [] => builds_nil
  | g :: F => builds_cons (builds_one hb hadj g) (builds_all hb hadj F)
end

end Tombi
