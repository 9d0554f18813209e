import Verif.Proofs.ViewStep
/-! The parser follows the parser on views as long as it reports no error: keys, commas, dangling comments. -/
namespace Tombi
open SyntaxKind View PM

@[simp] theorem hd_cons (t : VTok) (v : View) : hd (t :: v) = t.kind := rfl

/-- `e` builds the trees of `f`, or reports an error -/
def Builds (e : PM Bool) (f : PV) : Prop :=
  ∀ p, Inv p → ∀ b p', e p = .ok (b, p') →
    match f p.view with
    | some (F, v) => b = true ∧ Run F p p' ∧ p'.view = v
    | none => nerr p < nerr p'

theorem bumpRemap_run {p p' : Parser} (hi : Inv p) {k : SyntaxKind} (hk : rawOf k = 1) {t : VTok} {v : View}
    (hv : p.view = t :: v) (ht : t.kind ≠ EOF) {a : Unit} (h : bumpRemap k p = .ok (a, p')) :
    Run [.token k t.text] p p' ∧ p'.view = v := by
  obtain ⟨c, p1, h1, h2⟩ := pm_bind_ok h
  obtain ⟨hc0, rfl⟩ := pm_read_ok h1
  have : c ≠ EOF := by rw [hc0, Parser.nth_view]; simpa [hv] using ht
  rw [if_neg this] at h2
  exact doBump_one hi hk hv ht h2

/-- one token in a node -/
theorem node_run {p p' : Parser} (hi : Inv p) {k : SyntaxKind} {m : PM Unit} {t : VTok} {v : View}
    (hm : ∀ p, Inv p → p.view = t :: v → ∀ p', m p = .ok ((), p') → Run [.token k t.text] p p' ∧ p'.view = v)
    (hv : p.view = t :: v) {a : Unit} (h : (start >>= fun n => m >>= fun _ => complete n k) p = .ok (a, p')) :
    Run [.node k [.token k t.text]] p p' ∧ p'.view = v := by
  have hs : Sim (fun w => w = t :: v) m (fun _ w => if w = t :: v then some ([.token k t.text], v) else none) := by
    intro q hq hqv q' hr
    show Res q (if q.view = t :: v then _ else _) q'
    rw [if_pos hqv]
    exact hm q hq hqv q' hr
  have := Sim.node (Sims.seq hs (fun n => mono_complete n k) (Sims.done (k := k))) p hi hv p' h
  simp only [nodeV, seqV, hv, if_true, okV, List.append_nil] at this
  exact this

theorem textAt_eq {src w : List Char} {t : Token} (h : byteSlice t.span.start t.span.stop src = some w) :
    textAt src t = w := by simp [textAt, h]

theorem push_three {t1 t2 t3 : Token} {p p' : Parser} {a : Unit} (h : (pushToken t1 >>= fun _ => pushToken t2 >>= fun _ =>
    pushToken t3 >>= fun _ => (modify fun p => { p with pos := p.pos + 1 } : PM Unit)) p = .ok (a, p')) :
    p' = Parser.mk p.source p.input (p.pos + 1) p.depth (p.tokens ++ [t1, t2, t3]) (p.events ++
      [.start t1.kind, .token t1.kind 1, .finish, .start t2.kind, .token t2.kind 1, .finish,
       .start t3.kind, .token t3.kind 1, .finish]) := by
  obtain ⟨_, q1, f1, f2⟩ := pm_bind_ok h
  rw [pushToken_eq] at f1
  cases f1
  obtain ⟨_, q2, f3, f4⟩ := pm_bind_ok f2
  rw [pushToken_eq] at f3
  cases f3
  obtain ⟨_, q3, f5, f6⟩ := pm_bind_ok f4
  rw [pushToken_eq] at f5
  cases f5
  cases f6
  simp

theorem bumpFloatKey_run (G : Segmenter) {p p' : Parser} (hi : Inv p) {t : VTok} {v : View} (hv : p.view = t :: v)
    (ht : t.kind = FLOAT) {a : Unit} (h : bumpFloatKey G p = .ok (a, p')) :
    ∃ F, keyV (t :: v) = some (F, v) ∧ Run F p p' ∧ p'.view = v := by
  have hn : p.nth 0 = FLOAT := by rw [Parser.nth_view]; simpa [hv] using ht
  have hran := wp_ok (bumpFloatKey_spec G hi hn) h
  have hrem : 0 < p.rem := rem_of_view hi (by rw [List.drop_zero, hv]; show t.kind ≠ EOF; rw [ht]; decide)
  have hlen : 0 < (sig p.rest).length := by unfold Parser.rem at hrem; omega
  obtain ⟨A, f, B, h1, h2, h3, h4⟩ := Parser.nthIndexFrom_lt hlen p.pos
  have hAt : ∀ t ∈ A, t.kind.isTrivia = true := sig_eq_nil.mp (List.length_eq_zero_iff.mp h3)
  have hf : p.nthToken 0 = f := by
    rw [Parser.nthToken_eq, h1, sig_append, sig_cons_sig h2]
    rw [List.getElem?_append_right (by omega), h3]
    rfl
  have hfk : f.kind = FLOAT := by rw [← hn]; unfold Parser.nth; rw [hf]
  obtain ⟨ws, hc1, hc2⟩ := hi.cut
  rw [h1, ← List.append_assoc] at hc1
  obtain ⟨wa, wb, rfl, hca, hcb⟩ := Cut.append.mp hc1
  obtain ⟨w, wb', rfl, hsp, hcb'⟩ := hcb
  have hsrc : p.source = wa.flatten ++ w ++ wb'.flatten := by rw [← hc2]; simp
  have htext : byteSlice f.span.start f.span.stop p.source = some w := by
    rw [hsp, hsrc]
    simpa using byteSlice_append wa.flatten w wb'.flatten
  have hview : p.view = ⟨f.kind, textAt p.source f, jointBefore B⟩ :: viewOf p.source B := by
    rw [Parser.view, h1, viewOf_triv _ _ hAt]
    simp [viewOf, h2]
  rw [textAt_eq htext] at hview
  have hmem : f ∈ p.input := by
    have : f ∈ p.rest := by rw [h1]; simp
    exact List.mem_of_mem_drop this
  have hle := hi.static.oneDot f hmem w hfk htext
  obtain ⟨b1, p1, e1, e2⟩ := pm_bind_ok h
  obtain ⟨hb1, rfl⟩ := pm_read_ok e1
  obtain ⟨b2, p2, e3, e4⟩ := pm_bind_ok e2
  have hb1' : b1 = true := by rw [hb1, hn]; rfl
  rw [hb1'] at e3
  cases e3
  obtain ⟨b3, p3, e5, e6⟩ := pm_bind_ok e4
  obtain ⟨hb3, rfl⟩ := pm_read_ok e5
  obtain ⟨b4, p4, e7, e8⟩ := pm_bind_ok e6
  obtain ⟨hb4, rfl⟩ := pm_read_ok e7
  rw [hb3, hb4, hf, htext] at e8
  dsimp only at e8
  have hv0 := hv
  rw [hview] at hv
  obtain ⟨rfl, rfl⟩ := List.cons.inj hv
  by_cases hdot : '.' ∈ w
  · rw [if_pos hdot] at e8
    have hdf : DottedFloat p4.source f := ⟨hfk, w, htext, hdot⟩
    have hA : A = [] := by
      apply Classical.byContradiction
      intro hA
      have hin : p4.input = p4.input.take p4.pos ++ A ++ f :: B := by
        rw [List.append_assoc, ← h1]; unfold Parser.rest; rw [List.take_append_drop]
      obtain ⟨x1, x2⟩ := hi.static.attached _ _ _ _ hin hA hAt hdf
      obtain ⟨t, A', rfl⟩ := List.exists_cons_of_ne_nil hA
      have hget : p4.input[p4.pos]? = some t := by
        have : p4.input[p4.pos]? = p4.rest[0]? := by simp [Parser.rest]
        rw [this, h1]; rfl
      rcases hi.lag t hget (hAt t (by simp)) with h0 | ⟨g, hg, hdg⟩
      · exact x1 (by rw [h0]; rfl)
      · have hpos := hi.pos
        have hp : p4.pos ≠ 0 := by rintro h0; exact x1 (by rw [h0]; rfl)
        have hlt : p4.pos - 1 < p4.input.length := by omega
        rw [List.getElem?_eq_getElem hlt] at hg
        refine x2 (p4.input.take (p4.pos - 1)) g ?_ hdg
        have hs : p4.pos = (p4.pos - 1) + 1 := by omega
        have : p4.input.take p4.pos = p4.input.take (p4.pos - 1) ++ [p4.input[p4.pos - 1]] := by
          rw [List.take_append_getElem hlt, ← hs]
        rw [this, Option.some.inj hg]
    subst hA
    have hge : 0 < w.count '.' := List.count_pos_iff.mpr hdot
    obtain ⟨x, y, hsplit, hw⟩ := splitDot_one (w := w) (by omega)
    rw [hsplit] at e8
    dsimp only at e8
    have hp' := push_three e8
    have hinv := hran.inv
    rw [hp'] at hinv ⊢
    have hrest : p4.input.drop (p4.pos + 1) = B := by
      have : p4.input.drop (p4.pos + 1) = p4.rest.drop 1 := by simp [Parser.rest]
      rw [this, h1]; rfl
    have e0 : f.span.start = utf8Len wa.flatten := by rw [hsp]; simp
    refine ⟨[.node BARE_KEY [.token BARE_KEY x], .node DOT [.token DOT ['.']], .node BARE_KEY [.token BARE_KEY y]],
      ?_, ⟨rfl, rfl, rfl, hinv, ?_, ⟨_, rfl, ?_⟩, ?_⟩, ?_⟩
    rotate_left 3
    · intro h0
      rw [h1, List.nil_append, NoAdj.split h2] at h0
      show NoAdj (p4.tokens ++ _ ++ p4.input.drop (p4.pos + 1))
      rw [hrest, List.append_assoc]
      simp only [List.cons_append, List.nil_append]
      rw [NoAdj.split rfl, NoAdj.cons rfl, NoAdj.cons rfl]
      exact h0
    rotate_left
    · simp only [keyV, hfk, hsplit]
    · simp [evsOfL, evsOf, madeToken, rawOf]
    · simp only [leavesL, leaves, List.append_nil, List.cons_append, List.nil_append]
      have t1 : textAt p4.source (madeToken G BARE_KEY f.span.start f.range.start x) = x := by
        apply textAt_eq
        have := byteSlice_append wa.flatten x ('.' :: y ++ wb'.flatten)
        rw [hsrc, hw]
        simpa [madeToken, e0] using this
      have t2 : ∀ pos, textAt p4.source (madeToken G DOT (f.span.start + utf8Len x) pos ['.']) = ['.'] := by
        intro pos
        apply textAt_eq
        have := byteSlice_append (wa.flatten ++ x) ['.'] (y ++ wb'.flatten)
        rw [hsrc, hw]
        simpa [madeToken, e0, Nat.add_assoc] using this
      have t3 : ∀ pos, textAt p4.source (madeToken G BARE_KEY (f.span.start + utf8Len x + utf8Len ['.']) pos y) = y := by
        intro pos
        apply textAt_eq
        have := byteSlice_append (wa.flatten ++ x ++ ['.']) y wb'.flatten
        rw [hsrc, hw]
        simpa [madeToken, e0, Nat.add_assoc] using this
      have c1 : ∀ q1 q2, Covers p4.source [madeToken G BARE_KEY f.span.start f.range.start x,
          madeToken G DOT (f.span.start + utf8Len x) q1 ['.'],
          madeToken G BARE_KEY (f.span.start + utf8Len x + utf8Len ['.']) q2 y]
          [(BARE_KEY, x), (DOT, ['.']), (BARE_KEY, y)] := by
        intro q1 q2
        have := Covers.one (src := p4.source) (t := madeToken G BARE_KEY f.span.start f.range.start x) (k := BARE_KEY)
          rfl rfl (Covers.one (t := madeToken G DOT (f.span.start + utf8Len x) q1 ['.']) (k := DOT) rfl rfl
          (Covers.one (t := madeToken G BARE_KEY (f.span.start + utf8Len x + utf8Len ['.']) q2 y) (k := BARE_KEY)
            rfl rfl Covers.nil))
        rw [t1, t2, t3] at this
        exact this
      exact c1 _ _
    · show viewOf p4.source (p4.input.drop (p4.pos + 1)) = _
      rw [hrest]
  · rw [if_neg hdot] at e8
    have hz : w.count '.' = 0 := List.count_eq_zero.mpr hdot
    refine ⟨[.node BARE_KEY [.token BARE_KEY w]], ?_, ?_⟩
    · simp only [keyV, hfk, splitDot_zero hz]
    · exact node_run hi (fun q hq hqv q' hr => bumpRemap_run hq rfl hqv (by rw [ht]; decide) hr) hv0 e8

theorem bump_run {p p' : Parser} (hi : Inv p) {k : SyntaxKind} (hk : rawOf k = 1) {t : VTok} {v : View}
    (hv : p.view = t :: v) (ht : t.kind = k) (hke : k ≠ EOF) {a : Unit} (h : bump k p = .ok (a, p')) :
    Run [.token k t.text] p p' ∧ p'.view = v := by
  obtain ⟨b, p1, h1, h2⟩ := pm_bind_ok h
  rcases eat_run hi hke hk h1 with ⟨rfl, t', v', e1, e2, e3, e4⟩ | ⟨rfl, rfl, e1⟩
  · rw [hv] at e1
    cases e1
    cases h2
    exact ⟨e3, e4⟩
  · rw [hv] at e1
    exact absurd ht e1

theorem builds_eatKey (G : Segmenter) : Builds (eatKey G) keyV := by
  intro p hi b p' h
  obtain ⟨k, p1, h1, h2⟩ := pm_bind_ok h
  obtain ⟨hk, rfl⟩ := pm_read_ok h1
  rw [p1.current_view] at hk
  have hbad : ∀ {q q' : Parser} {c : Bool}, (do
      let m ← start
      error .ExpectedKey (← currentRange)
      complete m INVALID_TOKEN
      return false : PM Bool) q = .ok (c, q') → nerr q < nerr q' := fun hr =>
    (Errs.right mono_start fun _ => Errs.right mono_currentRange fun _ => Errs.left (errs_error _ _) fun _ =>
      .bind (mono_complete _ _) fun _ => .pure _) _ _ _ hr
  cases hv : p1.view with
  | nil =>
    rw [hv] at hk
    subst hk
    exact hbad h2
  | cons t v =>
    rw [hv] at hk
    have hk' : t.kind = k := hk.symm
    have plain : rawOf k = 1 → k ≠ EOF → ∀ {c : Bool} {q' : Parser}, (do
        let m ← start
        bump k
        complete m k
        return true : PM Bool) p1 = .ok (c, q') →
        c = true ∧ Run [.node t.kind [.token t.kind t.text]] p1 q' ∧ q'.view = v := by
      intro hr he c q' hx
      have hx' : ((start >>= fun m => bump k >>= fun _ => complete m k) >>= fun _ => pure true) p1 = .ok (c, q') := by
        simpa only [bind_assoc] using hx
      obtain ⟨_, q1, y1, y2⟩ := pm_bind_ok hx'
      obtain ⟨rfl, rfl⟩ := pure_ok y2
      have := node_run hi (fun q hq hqv q' hr' => bump_run hq hr hqv hk' he hr') hv y1
      rw [← hk'] at this
      exact ⟨rfl, this⟩
    have remap : k ≠ EOF → ∀ {c : Bool} {q' : Parser}, (do
        let m ← start
        bumpRemap BARE_KEY
        complete m BARE_KEY
        return true : PM Bool) p1 = .ok (c, q') →
        c = true ∧ Run [.node BARE_KEY [.token BARE_KEY t.text]] p1 q' ∧ q'.view = v := by
      intro he c q' hx
      have hx' : ((start >>= fun m => bumpRemap BARE_KEY >>= fun _ => complete m BARE_KEY) >>= fun _ => pure true) p1 =
          .ok (c, q') := by simpa only [bind_assoc] using hx
      obtain ⟨_, q1, y1, y2⟩ := pm_bind_ok hx'
      obtain ⟨rfl, rfl⟩ := pure_ok y2
      exact ⟨rfl, node_run hi (fun q hq hqv q' hr' => bumpRemap_run hq rfl hqv (by rw [hk']; exact he) hr') hv y1⟩
    by_cases hfl : k = FLOAT
    · subst hfl
      obtain ⟨_, q1, y1, y2⟩ := pm_bind_ok h2
      obtain ⟨rfl, rfl⟩ := pure_ok y2
      obtain ⟨F, z1, z2, z3⟩ := bumpFloatKey_run G hi hv hk' y1
      rw [z1]
      exact ⟨rfl, z2, z3⟩
    · cases k
      case FLOAT => exact absurd rfl hfl
      case BARE_KEY | BASIC_STRING | LITERAL_STRING =>
        have := plain rfl (by decide) h2
        simp only [keyV, hk'] at this ⊢
        exact this
      case INTEGER_DEC | INTEGER_HEX | INTEGER_OCT | INTEGER_BIN | BOOLEAN | LOCAL_DATE =>
        have := remap (by decide) h2
        simp only [keyV, hk'] at this ⊢
        exact this
      all_goals
        simp only [keyV, hk']
        exact hbad h2

theorem hd_tail (v : View) : hd v.tail = hd (v.drop 1) := by simp

theorem keysLoopV_none {v : View} (k : Nat) (h : keyV v = none) : keysLoopV (k + 1) v = none := by
  simp [keysLoopV, seqV, h]

theorem keysLoopV_end {v v1 : View} {F : List Green} (k : Nat) (h : keyV v = some (F, v1)) (h1 : hd v1 ≠ DOT) :
    keysLoopV (k + 1) v = some (F, v1) := by
  simp [keysLoopV, seqV, h, if_neg h1, okV]

theorem keysLoopV_bad {v w : View} {t : VTok} {F : List Green} (k : Nat) (h : keyV v = some (F, t :: w))
    (h1 : t.kind = DOT) (h2 : TS_KEY_FIRST.contains (hd w) = false) : keysLoopV (k + 1) v = none := by
  simp [keysLoopV, seqV, h, h1, tokV, h2]

theorem keysLoopV_more {v w : View} {t : VTok} {F : List Green} (k : Nat) (h : keyV v = some (F, t :: w))
    (h1 : t.kind = DOT) (h2 : TS_KEY_FIRST.contains (hd w) = true) :
    keysLoopV (k + 1) v = (keysLoopV k w).map fun x => (F ++ (.token DOT t.text :: x.1), x.2) := by
  simp only [keysLoopV, seqV, h, hd_cons, h1, if_true, tokV, h2]
  cases keysLoopV k w <;> rfl

theorem keysLoop_run (G : Segmenter) (n k : Nat) {p p' : Parser} (hi : Inv p) (hk : p.view.length < k) {b e : Bool}
    (h : eatKeysLoop G n e p = .ok (b, p')) :
    match keysLoopV k p.view with
    | some (F, v) => b = !e ∧ Run F p p' ∧ p'.view = v
    | none => nerr p < nerr p' := by
  induction n generalizing p k e with
  | zero => cases h
  | succ n ih =>
    cases k with
    | zero => omega
    | succ k =>
      obtain ⟨b1, p1, h1, h2⟩ := pm_bind_ok h
      have hb := builds_eatKey G p hi b1 p1 h1
      cases hkv : keyV p.view with
      | none =>
        rw [hkv] at hb
        have hb : nerr p < nerr p1 := hb
        have : nerr p1 ≤ nerr p' := (Mono.bind (mono_eat _) fun _ => .ite (.pure _) <| .bind (.read _) fun _ =>
          .ite (.bind mono_currentRange fun _ => .bind (mono_error _ _) fun _ => .pure _)
            (mono_eatKeysLoop _ _ _)) _ _ _ h2
        rw [keysLoopV_none k hkv]
        show nerr p < nerr p'
        omega
      | some x =>
        obtain ⟨F, v⟩ := x
        rw [hkv] at hb
        obtain ⟨rfl, hr1, hv1⟩ := hb
        have hlen : v.length < p.view.length := by
          match hpv : p.view with
          | [] => rw [hpv] at hkv; cases hkv
          | t :: w =>
            rw [hpv] at hkv
            simp only [keyV] at hkv
            have : v = w := by
              split at hkv <;> try (cases hkv; rfl)
              · split at hkv <;> (cases hkv; rfl)
              · cases hkv
            simp [this]
        obtain ⟨b2, p2, h3, h4⟩ := pm_bind_ok h2
        rcases eat_run hr1.inv (k := DOT) (by decide) rfl h3 with ⟨rfl, t, w, e1, e2, e3, e4⟩ | ⟨rfl, rfl, e1⟩
        · simp only [Bool.not_true, Bool.false_eq_true, if_false] at h4
          rw [hv1] at e1
          obtain ⟨b3, p3, h5, h6⟩ := pm_bind_ok h4
          obtain ⟨hb3, rfl⟩ := pm_read_ok h5
          have hb3' : b3 = TS_KEY_FIRST.contains (hd w) := by
            rw [hb3]; show TS_KEY_FIRST.contains p3.current = _; rw [p3.current_view, e4]
          rw [e1] at hkv
          cases hc : TS_KEY_FIRST.contains (hd w) with
          | false =>
            rw [hb3', hc] at h6
            have : Errs (currentRange >>= fun r => error .ForbiddenKeysLastPeriod r >>= fun _ => pure (!(e || !true))
                : PM Bool) := .right mono_currentRange fun _ => .left (errs_error _ _) fun _ => .pure _
            have := this _ _ _ h6
            have e5 := nerr_run hr1
            have e6 := nerr_run e3
            rw [keysLoopV_bad k hkv e2 hc]
            show nerr p < nerr p'
            omega
          | true =>
            rw [hb3', hc] at h6
            simp only [Bool.not_true, Bool.false_eq_true, if_false, Bool.or_false] at h6
            have := ih k (p := p3) e3.inv (by rw [e4]; rw [e1] at hlen; simp at hlen; omega) h6
            rw [e4] at this
            rw [keysLoopV_more k hkv e2 hc]
            cases hl : keysLoopV k w with
            | none =>
              rw [hl] at this
              have e5 := nerr_run hr1
              have e6 := nerr_run e3
              have this : nerr p3 < nerr p' := this
              show nerr p < nerr p'
              omega
            | some y =>
              obtain ⟨F', v'⟩ := y
              rw [hl] at this
              obtain ⟨a1, a2, a3⟩ := this
              refine ⟨a1, ?_, a3⟩
              simpa using hr1.trans (e3.trans a2)
        · simp only [Bool.not_false, if_true] at h4
          obtain ⟨rfl, rfl⟩ := pure_ok h4
          rw [hv1] at e1
          rw [keysLoopV_end k hkv e1]
          exact ⟨by simp, hr1, hv1⟩

theorem builds_eatKeys (G : Segmenter) : Builds (eatKeys G)
    (fun v => if hd v.tail = DOT then keysLoopV (v.length + 1) v else keyV v) := by
  intro p hi b p' h
  obtain ⟨c, p1, h1, h2⟩ := pm_bind_ok h
  obtain ⟨hc, rfl⟩ := pm_read_ok h1
  replace hc : c = (hd (p1.view.drop 1) == DOT) := hc.trans (p1.nthAt_view 1 rfl)
  rw [← hd_tail] at hc
  dsimp only
  by_cases hd1 : hd p1.view.tail = DOT
  · rw [if_pos hd1]
    rw [show c = true by rw [hc]; simpa using hd1, if_pos rfl] at h2
    obtain ⟨q, p2, h3, h4⟩ := pm_bind_ok h2
    cases h3
    have := keysLoop_run G _ (p1.view.length + 1) hi (by omega) h4
    exact this
  · rw [if_neg hd1]
    rw [show c = false by rw [hc]; simpa using hd1] at h2
    exact builds_eatKey G p1 hi b p' h2

theorem sim_keys (G : Segmenter) : Sim Any (keys G) (fun _ => keysV) := by
  refine Sim.node (k := KEYS) (f := fun _ v => if hd v.tail = DOT then keysLoopV (v.length + 1) v else keyV v) ?_
  intro p0 F0 p hi hrun _ p' hr
  obtain ⟨b, p1, h1, h2⟩ := pm_bind_ok hr
  have := builds_eatKeys G p hrun.inv b p1 h1
  dsimp only at this ⊢
  cases hx : (if hd p.view.tail = DOT then keysLoopV (p.view.length + 1) p.view else keyV p.view) with
  | none =>
    rw [hx] at this
    have e1 := nerr_run hrun
    rw [nerr_opened] at e1
    have e2 : nerr p1 ≤ nerr p' := (Mono.ite (mono_complete _ _) (mono_complete _ _)) _ _ _ h2
    have this : nerr p < nerr p1 := this
    show nerr p0 < nerr p'
    omega
  | some y =>
    obtain ⟨F, v⟩ := y
    rw [hx] at this
    obtain ⟨rfl, r1, r2⟩ := this
    have := Sims.done (P := Any) (k := KEYS) p0 (F0 ++ F) p1 hi (hrun.trans r1) trivial p' h2
    simp only [closed, okV, List.append_nil, r2] at this ⊢
    exact this

theorem sim_comma : Sim Any comma (fun _ => commaV) :=
  Sim.node (f := fun _ => leadV ⨟ tokV COMMA ⨟ trailV ) <|
    (Sims.seq (g := fun _ => tokV COMMA ⨟ trailV ⨟ okV) sim_lead
      (fun _ => .bind (.read _) fun _ => .bind (mono_dassert _) fun _ =>
        .bind (mono_eat _) fun _ => .bind mono_trail fun _ => mono_complete _ _)
      (Sims.must (g := fun _ => trailV ⨟ okV) (eats_eat (by decide) rfl)
        (Sims.seq sim_trail (fun _ => mono_complete _ _) Sims.done))).congr fun d v _ => by
      simp [seqV, trailV, spanV, okV]

end Tombi
