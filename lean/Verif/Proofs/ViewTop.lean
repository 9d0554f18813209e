import Verif.Proofs.ViewKeeps
/-! The parser against the parser on views, from end to end. -/
namespace Tombi
open SyntaxKind View PM

/-! ### The lexer -/

theorem trivia_iff {k : SyntaxKind} : k.isTrivia = true ↔ k = WHITESPACE := by
  cases k <;> decide

theorem noAdj_toks {after : List Char} {ps : List Piece} (h : PiecesOk after ps) (off : Nat) (pos : Position) :
    NoAdj (toks off pos ps) := by
  induction ps generalizing off pos with
  | nil => trivial
  | cons p ps ih =>
    have ih' := ih h.2 (off + utf8Len p.text) (advPos pos p.text)
    cases ps with
    | nil => trivial
    | cons q qs =>
      refine ⟨?_, ih'⟩
      rintro ⟨h1, h2⟩
      replace h1 : p.kind = WHITESPACE := trivia_iff.mp h1
      replace h2 : q.kind = WHITESPACE := trivia_iff.mp h2
      have shape : ∀ {x : Piece} {a : List Char}, x.Ok a → x.kind = WHITESPACE → Shape WHITESPACE x.text a := by
        intro x a hx hk
        obtain ⟨⟨_, hx⟩, _⟩ := hx
        cases he : x.err with
        | some e => rw [he] at hx; simp only [] at hx; rw [hx] at hk; cases hk
        | none => rw [he] at hx; rw [← hk]; exact hx.2.2
      obtain ⟨_, _, s3⟩ := shape h.1 h1
      obtain ⟨t1, t2, _⟩ := shape h.2.1 h2
      cases hq : q.text with
      | nil => exact t1 hq
      | cons c r =>
        have e1 := s3 c (r ++ texts qs ++ after) (by simp [hq])
        have e2 := t2 c (by simp [hq])
        rw [e1] at e2
        cases e2

theorem NoAdj.snoc {a : List Token} {t : Token} (ht : t.kind.isTrivia = false) (h : NoAdj a) : NoAdj (a ++ [t]) :=
  (NoAdj.split ht).mpr ⟨h, trivial⟩

/-- The lexer never makes two blanks in a row. -/
theorem lex_noAdj (G : Segmenter) (src : List Char) {l : Lexed} (h : lex G src = .ok l) : NoAdj l.tokens := by
  obtain ⟨ps, l', h1, h2, h3, h4, -⟩ := lexWith_spec G src (src.length + 1) (by omega)
  have : lex G src = .ok l' := h1
  rw [h] at this
  cases this
  rw [h4]
  exact (noAdj_toks h3 _ _).snoc (by show SyntaxKind.isTrivia EOF = false; decide)

/-! ### The root -/

theorem seqV_last (f : PV) : (f ⨟ okV) = f := by
  funext v
  unfold seqV okV
  cases f v with
  | none => rfl
  | some x => simp

theorem sim_root (G : Segmenter) (n m : Nat) (h : n ≤ m) :
    Sim Any (start >>= fun i => parseNT G n .sectionLoop >>= fun _ => parseNT G n .rootLoop >>= fun _ => complete i ROOT)
      (fun d => nodeV ROOT (parseV m .sectionLoop d ⨟ parseV m .rootLoop d)) := by
  have e : (fun d => nodeV ROOT (parseV m .sectionLoop d ⨟ parseV m .rootLoop d)) =
      (fun d => nodeV ROOT (parseV m .sectionLoop d ⨟ (parseV m .rootLoop d ⨟ okV))) := by
    funext d
    rw [seqV_last]
  rw [e]
  refine Sim.node ?_
  refine Sims.seq (sim_parseNT G n m h _) (fun i => .bind (mono_parseNT G n _) fun _ => mono_complete _ _) ?_
  exact Sims.seq (sim_parseNT G n m h _) (fun i => mono_complete _ _) Sims.done

theorem pm_bind_intro {α β : Type} {m : PM α} {f : α → PM β} {p p1 : Parser} {a : α} {r : Except Abort (β × Parser)}
    (h1 : m p = .ok (a, p1)) (h2 : f a p1 = r) : (m >>= f) p = r := by
  have : (m >>= f) p = (m p >>= fun x => f x.1 x.2) := rfl
  rw [this, h1]
  exact h2

theorem root_run (G : Segmenter) {p p' : Parser} (hi : Inv p) (hd : p.depth = 0) (h : PM.root G p = .ok ((), p')) (m : Nat)
    (hm : recFuel p ≤ m) : Res p (rootV m p.view) p' := by
  obtain ⟨i, p1, h1, h2⟩ := pm_bind_ok h
  obtain ⟨s, p2, h3, h4⟩ := pm_bind_ok h2
  cases h3
  have hin : recFuel p1 = recFuel p := by cases h1; rfl
  rw [hin] at h4
  have h5 := pm_bind_intro (f := fun i => parseNT G (recFuel p) .sectionLoop >>= fun _ => parseNT G (recFuel p) .rootLoop >>=
    fun _ => complete i ROOT) h1 h4
  have := sim_root G (recFuel p) m hm p hi trivial p' h5
  rw [hd] at this
  exact this

theorem apart_snoc {a b : List Green} (ha : Apart a) (hl : ∀ g, a.getLast? = some g → isBlank g = false) (hb : b.length ≤ 1) :
    Apart (a ++ b) := by
  rcases List.eq_nil_or_concat a with rfl | ⟨a', g, rfl⟩
  · exact Apart.short (by simpa using hb)
  · rw [List.concat_eq_append] at *
    have hg := hl g (by simp)
    rw [List.append_assoc]
    exact (Apart.split hg).mpr ⟨((Apart.split hg).mp ha).1, Apart.short hb⟩

/-- the builder on a whole document -/
theorem build_root {source : List Char} {T : List Token} {ws : List (List Char)} (hb : Build source T ws) (hadj : NoAdj T)
    {D : List Green} {pre post : List Token} (hT : T = pre ++ post) (hc : Covers source pre (leavesL D)) {x : Token}
    (hp : dw post = [x]) (hcl : CleanL D) (hraw : ∀ k n, Event.token k n ∈ evsOfL D → n < 256) :
    ∃ cs, buildGreenTree source T (process (evsOfL [.node ROOT D])) = .ok (.node ROOT cs, []) ∧ stripL cs = D ∧
      TidyL cs ∧ Apart cs := by
  have herr : ∀ F, errsOf (evsOfL F) = [] := by
    have : ∀ n, ∀ F : List Green, sizeOf F < n → errsOf (evsOfL F) = [] := by
      intro n
      induction n with
      | zero => intro F h; omega
      | succ n ih =>
        intro F h
        match F with
        | [] => rfl
        | .token k w :: F =>
          have := ih F (by simp at h; omega)
          simp only [errsOf] at this
          simp [evsOfL, evsOf, errsOf, this]
        | .node k cs :: F =>
          have h1 := ih F (by simp at h; omega)
          have h2 := ih cs (by simp at h; omega)
          simp only [errsOf] at h1 h2
          simp [evsOfL, evsOf, errsOf, List.filterMap_append, h1, h2]
    exact fun F => this _ F (Nat.lt_succ_self _)
  have hev : evsOfL [.node ROOT D] = .start ROOT :: (evsOfL D ++ [.finish]) := by simp [evsOfL, evsOf]
  have hsteps : (process (evsOfL [.node ROOT D])).steps = .ok (.enter ROOT :: ((evsOfL D).filterMap Event.toStep ++ [.exit])) := by
    rw [steps_process]
    · rw [hev]; simp [Event.toStep]
    · intro k m hm
      rw [hev] at hm
      simp at hm
      exact hraw k m hm
    · rw [herr]; simp
  let b1 : Builder := { Builder.new source T with
    state := .normal
    tree := TreeBuilder.new.startNode ROOT }
  have hst : (Builder.new source T).step (.enter ROOT) = .ok b1 := rfl
  obtain ⟨b2, b2', r1, r2, r3, new2, r4, r5, r6, r7, r8, -⟩ := builds_all hb hadj D b1 b1 pre post (Norm.of_normal rfl)
    rfl rfl (by show dw (T.drop 0) = _; rw [List.drop_zero, hT]) hc (by rw [hp]; simp) hcl
  let b3 : Builder := { b2' with state := .pendingExit }
  have hst3 : b2.step .exit = .ok b3 := r2.flush .pendingExit
  let b4 : Builder := { b2' with state := .normal }
  have hS : b4.source = source := r4.source
  have hT4 : b4.tokens = T := r4.tokens
  obtain ⟨b5, g1, g2, g3, new5, g4, g5, g6, -⟩ := eatTrivias_one (b := b4) (ws := ws)
    (by rw [hS, hT4]; exact hb) (by rw [hT4]; show dw (T.drop b2'.index) ≠ []; rw [r3, hp]; simp) (by rw [hT4]; exact hadj)
  have hT5 : b5.tokens = T := g4.tokens.trans hT4
  have hall : Grew ws (new2 ++ new5) [] b1 b5 := by
    have h4 : Grew ws new2 [] b1 b4 :=
      ⟨r4.source, r4.tokens, r4.le, r4.parents, r4.children, r4.errors, r4.text⟩
    simpa using h4.trans g4
  have hpar : b5.tree.parents = [(ROOT, 0)] := hall.parents
  have hchi : b5.tree.children = new2 ++ new5 := by
    rw [hall.children]; rfl
  have herr5 : b5.tree.errors = [] := by
    rw [hall.errors]; rfl
  refine ⟨new2 ++ new5, ?_, ?_, ?_, ?_⟩
  · unfold buildGreenTree
    rw [hsteps]
    show ((Step.enter ROOT :: ((evsOfL D).filterMap Event.toStep ++ [.exit])).foldlM Builder.step _ >>= _) = _
    rw [foldlM_step_cons hst, List.foldlM_append, r1]
    show (([Step.exit].foldlM Builder.step b2) >>= _) = _
    rw [foldlM_step_cons hst3]
    show (b4.eatTrivias >>= fun b => b.sinkFinish) >>= _ = _
    rw [g1]
    show (b5.sinkFinish >>= fun b => b.tree.finish) = _
    have : b5.tree.finishNode = .ok ⟨[], [.node ROOT (new2 ++ new5)], []⟩ := by
      simp [TreeBuilder.finishNode, hpar, hchi, herr5]
    simp only [Builder.sinkFinish, this]
    rfl
  · rw [stripL_append, r5, stripL_blanks g5, List.append_nil]
  · rw [TidyL.append]; exact ⟨r6, .blanks g5⟩
  · exact apart_snoc r7 r8 g6

theorem raw_evs : ∀ (n : Nat) (F : List Green), sizeOf F < n → ∀ k m, Event.token k m ∈ evsOfL F → m < 256 := by
  intro n
  induction n with
  | zero => intro F h; omega
  | succ n ih =>
    intro F h k m hm
    match F with
    | [] => cases hm
    | .token k' w :: F =>
      simp only [evsOfL, evsOf, List.mem_append, List.mem_singleton] at hm
      rcases hm with hm | hm
      · cases hm
        cases k <;> simp [rawOf]
      · exact ih F (by simp at h; omega) k m hm
    | .node k' cs :: F =>
      simp [evsOfL, evsOf] at hm
      rcases hm with hm | hm
      · exact ih cs (by simp at h; omega) k m hm
      · exact ih F (by simp at h; omega) k m hm

/-- The outcome of the parser, from the outcome of the parser on views. -/
def Outcome (r : Parsed) (l : Lexed) (res : Option (List Green × View)) : Prop :=
  match res with
  | none => ∃ e es, r.errors = l.errors.map PError.ofLex ++ e :: es
  | some (F, v) => r.errors = l.errors.map PError.ofLex ∧ hd v = EOF ∧
      ∃ D cs, F = [.node ROOT D] ∧ r.tree = .node ROOT cs ∧ stripL cs = D ∧ TidyL cs ∧ Apart cs

theorem parse_view (G : Segmenter) (src : List Char) (hlen : utf8Len src < 2 ^ 28)
    (hatt : ∀ l, lex G src = .ok l → FloatsAttached src l.tokens) :
    ∃ l r, lex G src = .ok l ∧ parse G src = .ok r ∧
      ∀ m, 8 * (l.tokens.length + 2) ≤ m → Outcome r l (rootV m (viewOf src l.tokens)) := by
  obtain ⟨l, p, evs, new, hl, hrun, hev, -, hparse, -⟩ := parse_spec G src hlen hatt
  refine ⟨l, _, hl, hparse, ?_⟩
  intro m hm
  obtain ⟨l', hl', -, -, hst⟩ := lex_static G src
  rw [hl] at hl'
  cases hl'
  have hst := hst (hatt l hl)
  have hi := inv_new hst
  have hres := root_run G hi rfl hrun m (by simpa [recFuel, Parser.new] using hm)
  have hv : (Parser.new src l.tokens).view = viewOf src l.tokens := by
    simp [Parser.view, Parser.new, Parser.rest]
  rw [hv] at hres
  have hee : errsOf p.events = errsOf evs := by rw [hev]; simp [errsOf, List.filterMap_append]
  cases hr : rootV m (viewOf src l.tokens) with
  | none =>
    rw [hr] at hres
    have h1 : nerr (Parser.new src l.tokens) < nerr p := hres
    have h2 : 0 < (errsOf evs).length := by
      rw [← hee]
      exact Nat.lt_of_le_of_lt (Nat.zero_le _) h1
    cases hx : errsOf evs with
    | nil => rw [hx] at h2; simp at h2
    | cons e es => exact ⟨e, es, rfl⟩
  | some x =>
    obtain ⟨F, v⟩ := x
    rw [hr] at hres
    obtain ⟨hR, hvv⟩ := hres
    obtain ⟨u, hu, hreads, hclean⟩ := Keeps.root m _ _ _ hr
    have hcl := hclean (plain_viewOf _ _)
    have hF : ∃ D, F = [.node ROOT D] := by
      unfold rootV nodeV at hr
      split at hr
      · cases hr
      · cases hr; exact ⟨_, rfl⟩
    obtain ⟨D, rfl⟩ := hF
    have hev2 : p.events = .start ROOT :: (evsOfL D ++ [.finish]) := by
      rw [hR.events]; simp [Parser.new, evsOfL, evsOf]
    have hevs : evs = evsOfL D := by
      rw [hev] at hev2
      simpa using hev2
    obtain ⟨toks, ht1, ht2⟩ := hR.tokens
    have ht1' : p.tokens = toks := by simpa [Parser.new] using ht1
    subst ht1'
    have hroot := PM.root_spec G hi rfl rfl rfl
    obtain ⟨_, p2, hrun2, hi2, hsrc2, hinp2, hn2, -⟩ := hroot
    have hpp : p2 = p := by
      have : (PM.root G).run (Parser.new src l.tokens) = .ok ((), p2) := hrun2
      rw [hrun] at this
      cases this
      rfl
    subst hpp
    obtain ⟨v', x', hv', ⟨a, ha⟩, hdw⟩ := rest_of_eof hi2 hn2
    obtain ⟨ws, hcut, hflat⟩ := hi2.cut
    have hsrc : p2.source = src := hsrc2
    have hadj : NoAdj (p2.tokens ++ p2.rest) := hR.adj (by
      simpa [Parser.new, Parser.rest] using lex_noAdj G src hl)
    obtain ⟨cs, c1, c2, c3, c4⟩ := build_root (source := src) ⟨hcut, by rw [hflat, hsrc]⟩ hadj (D := D) rfl
      (by simpa [leavesL, leaves, Parser.new] using ht2) hdw hcl.1.2 (raw_evs _ D (Nat.lt_succ_self _))
    have hfin : p2.finish = (p2.tokens ++ p2.rest, p2.events) := rfl
    have hevE : p2.events = evsOfL [.node ROOT D] := by
      rw [hR.events]; simp [Parser.new]
    have hparse2 : parse G src = .ok ⟨.node ROOT cs, l.errors.map PError.ofLex ++ [], l.lineEnding⟩ := by
      have hrun' : (PM.root G).run (Parser.new src l.tokens) = .ok ((), p2) := hrun
      simp only [parse, hl, bind, Except.bind, hrun', hfin, hevE, c1]
      rfl
    rw [hparse] at hparse2
    have h0 := Except.ok.inj hparse2
    obtain ⟨e1, e2, _⟩ := Parsed.mk.inj h0
    refine ⟨by rw [e2, List.append_nil], ?_, D, cs, rfl, e1, c2, c3, c4⟩
    rw [← hvv, ← Parser.current_view]
    exact hn2

end Tombi
