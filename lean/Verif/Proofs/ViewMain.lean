import Verif.Proofs.ViewKeys
/-! The parser follows the parser on views as long as it reports no error: the whole grammar. -/
namespace Tombi
open SyntaxKind View PM

/-! ### Further rules -/

/-- one after the other, with what the first leaves -/
theorem Sims.seqP {mode : Option SyntaxKind} {P Q : View → Prop} {a : PM Unit} {b : Nat → PM Unit} {f g : Nat → PV}
    (ha : Sim P a f) (hq : ∀ d v F v', P v → f d v = some (F, v') → Q v') (hm : ∀ n, Mono (b n)) (hb : Sims mode Q b g) :
    Sims mode P (fun n => a >>= fun _ => b n) (fun d => f d ⨟ g d) := by
  intro p0 F0 p hi hrun hp p' hr
  obtain ⟨_, p1, h1, h2⟩ := pm_bind_ok hr
  have hres := ha p hrun.inv hp p1 h1
  show Res p0 (closed mode F0 (seqV (f p.depth) (g p.depth) p.view)) p'
  unfold seqV
  cases hf : f p.depth p.view with
  | none =>
    rw [hf] at hres
    have e1 := nerr_run hrun
    have e2 := hm _ _ _ _ h2
    rw [nerr_opened] at e1
    show nerr p0 < nerr p'
    have : nerr p < nerr p1 := hres
    omega
  | some x =>
    obtain ⟨F, v⟩ := x
    rw [hf] at hres
    obtain ⟨r1, r2⟩ := hres
    have := hb p0 (F0 ++ F) p1 hi (hrun.trans r1) (by rw [r2]; exact hq _ _ _ _ hp hf) p' h2
    rw [r1.depth, r2] at this
    simp only
    cases hg : g p.depth v with
    | none => rw [hg] at this; exact this
    | some y =>
      obtain ⟨F', v'⟩ := y
      rw [hg] at this
      simp only [closed, List.append_assoc] at this ⊢
      exact this

theorem Sims.last {P : View → Prop} {a : PM Unit} {f : Nat → PV} (ha : Sim P a f) : Sims none P (fun _ => a) f := by
  intro p0 F0 p hi hrun hp p' hr
  have := ha p hrun.inv hp p' hr
  cases hf : f p.depth p.view with
  | none =>
    rw [hf] at this
    have e1 := nerr_run hrun
    rw [nerr_opened] at e1
    show nerr p0 < nerr p'
    have : nerr p < nerr p' := this
    omega
  | some x =>
    obtain ⟨F, v⟩ := x
    rw [hf] at this
    exact ⟨hrun.trans this.1, this.2⟩

theorem Sims.if {mode : Option SyntaxKind} {P : View → Prop} {r : Parser → Bool} {A B : Nat → PM Unit} {f : Nat → PV}
    (c : View → Bool) (hr : ∀ p, P p.view → r p = c p.view)
    (h1 : Sims mode (fun v => P v ∧ c v = true) A f) (h2 : Sims mode (fun v => P v ∧ c v = false) B f) :
    Sims mode P (fun n => PM.read r >>= fun b => if b = true then A n else B n) f :=
  Sims.read c (fun p _ hp => hr p hp) h1 h2

theorem Sims.unless {mode : Option SyntaxKind} {P : View → Prop} {r : Parser → Bool} {A B : Nat → PM Unit} {f : Nat → PV}
    (c : View → Bool) (hr : ∀ p, P p.view → r p = c p.view)
    (h1 : Sims mode (fun v => P v ∧ c v = true) B f) (h2 : Sims mode (fun v => P v ∧ c v = false) A f) :
    Sims mode P (fun n => PM.read r >>= fun b => if (!b) = true then A n else B n) f :=
  Sims.read c (fun p _ hp => hr p hp) h1 h2

theorem Sims.eatElse {mode : Option SyntaxKind} {P : View → Prop} {e : PM Bool} {f : PV} {A B : Nat → PM Unit}
    {g : Nat → PV} (he : Eats e f) (hf : ∀ n, Errs (A n)) (ht : Sims mode Any B g) :
    Sims mode P (fun n => e >>= fun b => if (!b) = true then A n else B n) (fun d => f ⨟ g d) :=
  Sims.eat (m := fun n b => if (!b) = true then A n else B n) he hf ht

/-! ### Dangling comment groups -/

theorem danglingLenLoop_run {p : Parser} {fuel n : Nat} {r : Option Nat} (h : danglingLenLoop p fuel n = .ok r)
    (hn : hd (p.view.drop n) = COMMENT) : r = (dangLoop (p.view.drop n)).map (n + ·) := by
  induction fuel generalizing n r with
  | zero => cases h
  | succ fuel ih =>
    rw [danglingLenLoop] at h
    simp only [Parser.nthAtTs, p.nth_view, p.nthAt_view _ (k := COMMENT) rfl] at h
    have e1 : p.view.drop (n + 1) = (p.view.drop n).tail := drop_tail _ _
    have e2 : p.view.drop (n + 2) = (p.view.drop n).tail.tail := by rw [← drop_tail, ← drop_tail]
    rw [e1, e2] at h
    have ih := @ih (n + 2)
    rw [e2] at ih
    match hv : p.view.drop n with
    | [] => rw [hv] at hn; cases hn
    | [t] =>
      rw [hv] at h
      simp only [List.tail, hd, ts_lineEnd.mpr (Or.inr rfl), Bool.not_true, Bool.false_eq_true, if_false,
        ts_groupEnd.mpr (Or.inr (Or.inr (Or.inr rfl))), if_true] at h
      cases h
      rfl
    | t :: l :: v =>
      rw [hv] at h ih
      simp only [List.tail_cons] at ih
      replace h : (if (!TS_LINE_END.contains l.kind) = true then Except.ok none
        else if TS_DANGLING_COMMENT_GROUP_END.contains (hd v) = true then Except.ok (some (n + 1))
        else if (!hd v == COMMENT) = true then Except.ok none else danglingLenLoop p fuel (n + 2)) = Except.ok r := h
      rw [dangLoop]
      cases c1 : TS_LINE_END.contains l.kind with
      | false =>
        rw [c1, if_pos (by simp)] at h
        cases h; rfl
      | true =>
        rw [c1, if_neg (by simp)] at h
        rw [if_neg (by simp)]
        cases c2 : TS_DANGLING_COMMENT_GROUP_END.contains (hd v) with
        | true => rw [c2, if_pos rfl] at h; cases h; rfl
        | false =>
          rw [c2, if_neg (by simp)] at h
          rw [if_neg (by simp)]
          by_cases c3 : hd v = COMMENT
          · rw [if_neg (by simp [c3])] at h
            rw [if_neg (by simp [c3])]
            rw [ih h c3]
            cases dangLoop v with
            | none => rfl
            | some k => simp only [Option.map_some]; congr 1; omega
          · rw [if_pos (by simp [c3])] at h
            rw [if_pos c3]
            cases h; rfl

theorem danglingLen_run {p p' : Parser} {r : Option Nat} (h : danglingLen p = .ok (r, p')) :
    p' = p ∧ r = dangLen p.view := by
  have h' : (if (!p.nthAt 0 COMMENT) = true then (Pure.pure none : PM (Option Nat))
      else liftM (danglingLenLoop p (loopFuel p) 0)) p = .ok (r, p') := h
  rw [p.nthAt_view 0 (k := COMMENT) rfl, List.drop_zero] at h'
  unfold dangLen
  by_cases hc : hd p.view = COMMENT
  · rw [if_neg (by simp [hc])] at h'
    rw [if_pos hc]
    cases hx : danglingLenLoop p (loopFuel p) 0 with
    | error e => rw [hx] at h'; cases h'
    | ok x =>
      rw [hx] at h'
      cases h'
      have := danglingLenLoop_run hx (by simpa using hc)
      refine ⟨rfl, ?_⟩
      rw [this]
      simp
  · rw [if_pos (by simp [hc])] at h'
    rw [if_neg hc]
    obtain ⟨rfl, rfl⟩ := pure_ok h'
    exact ⟨rfl, rfl⟩

theorem dangLoop_ok {v : View} {k : Nat} (h : dangLoop v = some k) (hc : hd v = COMMENT) :
    0 < k ∧ hd (v.drop (k - 1)) = COMMENT ∧ ∀ t ∈ v.take k, t.kind = COMMENT ∨ TS_LINE_END.contains t.kind = true := by
  fun_induction dangLoop v generalizing k with
  | case1 => cases h
  | case2 => cases h; exact ⟨by omega, hc, by simpa [hd] using Or.inl hc⟩
  | case3 => cases h
  | case4 => cases h
  | case5 a l v h1 h2 h3 n hn ih =>
    cases h
    obtain ⟨i1, i2, i3⟩ := ih hn (by simpa using h3)
    refine ⟨by omega, ?_, ?_⟩
    · rw [show n + 2 - 1 = (n - 1) + 2 by omega]; exact i2
    · intro t ht
      simp only [List.take_succ_cons, List.mem_cons] at ht
      rcases ht with rfl | rfl | ht
      · exact Or.inl hc
      · exact Or.inr (by simpa using h1)
      · exact i3 t ht
  | case6 v hv =>
    cases h
    refine ⟨by omega, hc, ?_⟩
    cases v with
    | nil => cases hc
    | cons t v => simpa using Or.inl hc

theorem bumpAnyN_run (k : Nat) : ∀ {p p' : Parser}, Inv p → k ≤ p.rem → (∀ t ∈ p.view.take k, rawOf t.kind = 1) →
    bumpAnyN k p = .ok ((), p') → Run ((p.view.take k).map leaf) p p' ∧ p'.view = p.view.drop k := by
  induction k with
  | zero =>
    intro p p' hi _ _ h
    obtain ⟨_, rfl⟩ := pure_ok h
    simpa using Run.refl hi
  | succ k ih =>
    intro p p' hi hk hs h
    obtain ⟨_, p1, h1, h2⟩ := pm_bind_ok h
    obtain ⟨c, p2, h3, h4⟩ := pm_bind_ok h1
    obtain ⟨rfl, rfl⟩ := pm_read_ok h3
    have hne : p2.nth 0 ≠ EOF := by rw [ne_eq, hi.nth_eof]; omega
    rw [if_neg hne] at h4
    rw [p2.nth_view, List.drop_zero] at h4 hne
    cases hv : p2.view with
    | nil => rw [hv] at hne; exact absurd rfl hne
    | cons t v =>
      rw [hv] at h4 hs hne
      have := doBump_one hi (hs t (by simp)) hv hne h4
      have hsp := wp_ok (doBump_spec hi t.kind (Or.inl rfl) (by omega) (by simp)) h4
      have hrem : k ≤ p1.rem := by
        have := hsp.rem; omega
      have h5 := ih this.1.inv hrem (by rw [this.2]; intro t ht; exact hs t (by simp [ht])) h2
      rw [this.2] at h5
      simp only [List.take_succ_cons, List.map_cons, List.drop_succ_cons]
      exact ⟨this.1.trans h5.1, h5.2⟩

theorem mem_take_get {α : Type} {l : List α} {k : Nat} {x : α} (h : x ∈ l.take k) : ∃ i, i < k ∧ l[i]? = some x := by
  obtain ⟨i, hi, rfl⟩ := List.mem_iff_getElem.mp h
  refine ⟨i, by simp at hi; omega, ?_⟩
  simp at hi ⊢

theorem dangLen_ok {p : Parser} (hi : Inv p) {k : Nat} (h : dangLen p.view = some k) :
    0 < k ∧ k ≤ p.rem ∧ ∀ t ∈ p.view.take k, rawOf t.kind = 1 := by
  unfold dangLen at h
  split at h
  · next hc =>
    obtain ⟨h1, h2, h3⟩ := dangLoop_ok h hc
    have : k - 1 < p.rem := rem_of_view hi (by rw [h2]; decide)
    refine ⟨h1, by omega, fun t ht => ?_⟩
    rcases h3 t ht with h4 | h4
    · rw [h4]; rfl
    · rcases ts_lineEnd.mp h4 with h4 | h4 <;> rw [h4] <;> rfl
  · cases h

theorem breaksV_le (v : View) : ∃ F v', breaksV v = some (F, v') ∧ v'.length ≤ v.length :=
  ⟨_, _, rfl, (List.dropWhile_suffix _).length_le⟩

theorem danglingLoop_run (n : Nat) : ∀ (m : Nat) {p p' : Parser}, Inv p → p.view.length < m →
    danglingLoop n p = .ok ((), p') → Res p (danglingV m p.view) p' := by
  induction n with
  | zero => intro m p p' _ _ h; cases h
  | succ n ih =>
    intro m p p' hi hm h
    obtain ⟨_, p1, h1, h2⟩ := pm_bind_ok h
    obtain ⟨r, p2, h3, h4⟩ := pm_bind_ok h2
    obtain ⟨rfl, hr⟩ := danglingLen_run h3
    have s1 := sim_breaks p hi trivial p2 h1
    cases m with
    | zero => omega
    | succ m =>
      rw [danglingV]
      unfold seqV
      obtain ⟨F, v, b1, b2⟩ := breaksV_le p.view
      dsimp only at s1
      rw [b1] at s1 ⊢
      obtain ⟨s1, s2⟩ := s1
      rw [s2] at hr
      dsimp only
      cases hl : dangLen v with
      | none =>
        rw [hl] at hr
        subst hr
        obtain ⟨_, rfl⟩ := pure_ok h4
        simp only [okV, List.append_nil]
        exact ⟨s1, s2⟩
      | some k =>
        rw [hl] at hr
        subst hr
        dsimp only at h4 ⊢
        obtain ⟨k1, k2, k3⟩ := dangLen_ok s1.inv (by rw [s2]; exact hl)
        obtain ⟨mk, p3, h5, h6⟩ := pm_bind_ok h4
        obtain ⟨_, p4, h7, h8⟩ := pm_bind_ok h6
        obtain ⟨_, p5, h9, h10⟩ := pm_bind_ok h8
        cases h5
        have g1 := bumpAnyN_run k (p := ⟨p2.source, p2.input, p2.pos, p2.depth, p2.tokens, p2.events ++ [.start TOMBSTONE]⟩)
          (s1.inv.pushEvents _) k2 k3 h7
        have g2 := Sims.done (P := Any) (k := DANGLING_COMMENT_GROUP) p2 _ p4 s1.inv g1.1 trivial p5 h9
        simp only [closed, okV, List.append_nil] at g2
        have e3 : p4.view = v.drop k := by rw [g1.2, ← s2]; rfl
        have hvl : (v.drop k).length < m := by
          have : v ≠ [] := by intro h; subst h; simp [dangLen, hd] at hl
          have : v.length ≠ 0 := by simpa using this
          simp; omega
        have e4 : p5.view = v.drop k := by rw [g2.2, e3]
        have := ih m g2.1.inv (by rw [e4]; exact hvl) h10
        rw [e4] at this
        have e5 : (Parser.mk p2.source p2.input p2.pos p2.depth p2.tokens (p2.events ++ [.start TOMBSTONE])).view = v := s2
        rw [e5] at g2
        simp only [nodeV]
        cases hd : danglingV m (v.drop k) with
        | none =>
          rw [hd] at this
          have t1 := nerr_run s1
          have t2 := nerr_run g2.1
          have this : nerr p5 < nerr p' := this
          show nerr p < nerr p'
          omega
        | some y =>
          obtain ⟨F', v'⟩ := y
          rw [hd] at this
          exact ⟨s1.trans (g2.1.trans this.1), this.2⟩

theorem sim_danglings : Sim Any danglingCommentGroups (fun _ => danglingsV) := by
  intro p hi _ p' h
  obtain ⟨n, p1, h1, h2⟩ := pm_bind_ok h
  cases h1
  exact danglingLoop_run _ _ hi (by omega) h2

/-! ### Values -/

theorem peek_lead (v : View) (h : isLead (hd (peek v)) = false) : v.dropWhile (fun t => isLead t.kind) = peek v := by
  fun_induction peek v with
  | case1 => rfl
  | case2 t ht => simp [isLead, ht]
  | case3 t ht => rw [List.dropWhile_cons_of_neg]; simpa [hd] using h
  | case4 t u v ht ih => rw [List.dropWhile_cons_of_pos (by simp [isLead, ht])]; exact ih h
  | case5 t u v ht hc ih =>
    rw [List.dropWhile_cons_of_pos (by simp [isLead, hc.1]), List.dropWhile_cons_of_pos (by simp [isLead, hc.2.1])]
    exact ih h
  | case6 t u v ht hc => rw [List.dropWhile_cons_of_neg]; simpa [hd] using h

theorem leadV_peek {v v' : View} {F : List Green} (h : isLead (hd (peek v)) = false) (hf : leadV v = some (F, v')) :
    v' = peek v := by
  simp only [leadV, spanV, Option.some.injEq, Prod.mk.injEq] at hf
  rw [← hf.2, peek_lead v h]

theorem literal_ok {k : SyntaxKind} (h : isLiteral k = true) : k ≠ EOF ∧ rawOf k = 1 ∧ isLead k = false := by
  cases k <;> first | exact ⟨by decide, rfl, rfl⟩ | cases h

theorem seqV_okV (f : PV) : f ⨟ okV = f := by
  funext v
  unfold seqV okV
  cases f v with
  | none => rfl
  | some x => simp

theorem seqV_assoc (f g h : PV) : (f ⨟ g) ⨟ h = f ⨟ (g ⨟ h) := by
  funext v
  unfold seqV
  cases f v with
  | none => rfl
  | some x =>
    obtain ⟨F, v1⟩ := x
    dsimp only
    cases g v1 with
    | none => rfl
    | some y =>
      obtain ⟨F', v2⟩ := y
      dsimp only
      cases h v2 with
      | none => rfl
      | some z => simp

theorem sim_literal {k : SyntaxKind} (hk : isLiteral k = true) :
    Sim (fun v => hd (peek v) = k) literalValue (fun _ => literalV k) := by
  obtain ⟨k1, k2, k3⟩ := literal_ok hk
  refine Sim.node (f := fun _ => leadV ⨟ tokV k ⨟ trailV) (k := k)
    (m := fun n => leadingComments >>= fun _ => PM.read (·.current) >>= fun kind => bump kind >>= fun _ =>
      trailingComment >>= fun _ => complete n kind) ?_
  refine Sims.congr (g := fun _ => leadV ⨟ tokV k ⨟ trailV ⨟ okV) ?_ (fun d v _ => by rw [seqV_okV])
  refine Sims.seqP (Q := fun v => hd v = k) (f := fun _ => leadV) (g := fun _ => tokV k ⨟ trailV ⨟ okV)
    (Sim.any sim_lead) ?_ ?_ ?_
  · intro d v F v' hv hf
    rw [leadV_peek (by rw [hv]; exact k3) hf]; exact hv
  · exact fun _ => .bind (.read _) fun _ => .bind (mono_bump _) fun _ => .bind mono_trail fun _ => mono_complete _ _
  · intro p0 F0 p hi hrun hp p' hr
    obtain ⟨c, p1, h1, h2⟩ := pm_bind_ok hr
    obtain ⟨rfl, rfl⟩ := pm_read_ok h1
    rw [p1.current_view, hp] at h2
    have h3 : (eat k >>= fun b => dassert b >>= fun _ => trailingComment >>= fun _ => complete p0.events.length k) p1 =
        .ok ((), p') := by
      obtain ⟨_, p2, h3, h4⟩ := pm_bind_ok h2
      obtain ⟨b, p3, h5, h6⟩ := pm_bind_ok h3
      show ((eat k p1) >>= fun x => (dassert x.1 >>= fun _ => trailingComment >>= fun _ => complete p0.events.length k) x.2) = _
      rw [h5]
      show ((dassert b p3) >>= fun x => (trailingComment >>= fun _ => complete p0.events.length k) x.2) = _
      rw [h6]
      exact h4
    have := Sims.eat (mode := some k) (P := fun v => hd v = k) (e := eat k) (f := tokV k)
      (m := fun n b => dassert b >>= fun _ => trailingComment >>= fun _ => complete n k)
      (g := fun _ => trailV ⨟ okV) (eats_eat k1 k2) (fun n p a p' h => by
        obtain ⟨_, p2, h3, h4⟩ := pm_bind_ok h
        cases h3) (fun p0 F0 p hi hrun hp p' hr => (Sims.seq (P := Any) (b := fun n => complete n k) sim_trail
          (fun _ => mono_complete _ _) Sims.done) p0 F0 p hi hrun hp p' hr)
    exact this p0 F0 p1 hi hrun hp p' h3

theorem sim_nested {inner : PM Unit} {f : Nat → PV} (h : Sim Any inner f) :
    Sim Any (nested inner) (fun d => nestedV d f) := by
  intro p hi _ p' hr
  obtain ⟨d, p1, h1, h2⟩ := pm_bind_ok hr
  obtain ⟨rfl, rfl⟩ := pm_read_ok h1
  show Res p1 (nestedV p1.depth f p1.view) p'
  unfold nestedV
  by_cases hd : maxRecursionDepth ≤ p1.depth
  · rw [if_pos hd] at h2 ⊢
    exact errs_skip _ _ _ h2
  · rw [if_neg hd] at h2 ⊢
    obtain ⟨_, p2, h3, h4⟩ := pm_bind_ok h2
    cases h3
    obtain ⟨_, p3, h5, h6⟩ := pm_bind_ok h4
    have hi2 : Inv { p1 with depth := p1.depth + 1 } :=
      ⟨hi.static, hi.pos, by have : ¬ 128 ≤ p1.depth := hd
                             show p1.depth + 1 ≤ 128
                             omega, hi.cut, hi.lag⟩
    have hres := h _ hi2 trivial p3 h5
    obtain ⟨d3, p4, h7, h8⟩ := pm_bind_ok h6
    obtain ⟨rfl, rfl⟩ := pm_read_ok h7
    dsimp only at h8
    have h9 : p4.depth ≠ 0 ∧ p' = { p4 with depth := p4.depth - 1 } := by
      by_cases hz : p4.depth = 0
      · rw [if_pos hz] at h8; cases h8
      · rw [if_neg hz] at h8; cases h8; exact ⟨hz, rfl⟩
    obtain ⟨h9, rfl⟩ := h9
    change Res _ (f (p1.depth + 1) p1.view) _ at hres
    cases hf : f (p1.depth + 1) p1.view with
    | none => rw [hf] at hres; exact hres
    | some x =>
      obtain ⟨F, v⟩ := x
      rw [hf] at hres
      obtain ⟨r1, r2⟩ := hres
      have hdep : p4.depth = p1.depth + 1 := r1.depth
      refine ⟨⟨r1.source, r1.input, ?_, ?_, r1.events, r1.tokens, r1.adj⟩, r2⟩
      · show p4.depth - 1 = p1.depth
        omega
      · exact ⟨r1.inv.static, r1.inv.pos, by show p4.depth - 1 ≤ 128; have := r1.inv.depth; omega, r1.inv.cut, r1.inv.lag⟩

theorem value_eq (G : Segmenter) (rec : NT → PM Unit) : value G rec = (peekLeadingComments >>= fun n =>
    PM.read (·.nth n) >>= fun k => if isLiteral k = true then literalValue else if k = BRACKET_START then
      nested (rec .array) else if k = BRACE_START then nested (rec .inlineTable) else if k = BARE_KEY then
      bareKeyValue G n else invalidValue n) := by
  unfold value
  congr 1
  funext n
  congr 1
  funext k
  cases k <;> rfl

theorem sim_value (G : Segmenter) {R : NT → PM Unit} {S : NT → Nat → PV} (ih : ∀ nt, Sim Any (R nt) (S nt)) :
    Sim Any (value G R) (valueV S) := by
  rw [value_eq]
  refine Sim.of (Sims.peek fun i => ?_)
  refine Sims.readAny (fun v => hd (v.drop i)) (fun p _ _ => p.nth_view i) fun k => ?_
  have key : ∀ v, ((Any v ∧ v.drop i = peek v) ∧ hd (v.drop i) = k) → hd (peek v) = k := by
    intro v hv; rw [← hv.1.2]; exact hv.2
  refine Sims.weaken (Q := fun v => hd (peek v) = k) ?_ key
  by_cases c1 : isLiteral k = true
  · simp only [if_pos c1]
    refine (Sims.last (sim_literal c1)).congr fun d v hv => ?_
    simp only [valueV, hv, c1, if_true]
  by_cases c2 : k = BRACKET_START
  · simp only [if_neg c1, if_pos c2]
    refine (Sims.last (Sim.any (sim_nested (ih .array)))).congr fun d v hv => ?_
    simp only [valueV, hv, c2, if_true, isLiteral, Bool.false_eq_true, if_false]
  by_cases c3 : k = BRACE_START
  · simp only [if_neg c1, if_neg c2, if_pos c3]
    refine (Sims.last (Sim.any (sim_nested (ih .inlineTable)))).congr fun d v hv => ?_
    simp [valueV, hv, c3, isLiteral]
  have hn : ∀ d v, hd (peek v) = k → valueV S d v = none := by
    intro d v hv
    simp only [valueV, hv, if_neg c1, if_neg c2, if_neg c3]
  by_cases c4 : k = BARE_KEY
  · simp only [if_neg c1, if_neg c2, if_neg c3, if_pos c4]
    exact Sims.errs (fun _ => errs_bareKeyValue G i) hn
  · simp only [if_neg c1, if_neg c2, if_neg c3, if_neg c4]
    exact Sims.errs (fun _ => errs_invalidValue i) hn

/-! ### Never losing errors -/

theorem mono_nested {m : PM Unit} (h : Mono m) : Mono (nested m) := by
  refine .bind (.read _) fun d => .ite errs_skip.mono (.bind (mono_modify fun _ => rfl) fun _ => .bind h fun _ =>
    .bind (.read _) fun d => ?_)
  dsimp only
  exact .ite (.bind mono_panic fun _ => mono_modify fun _ => rfl) (mono_modify fun _ => rfl)

theorem mono_value (G : Segmenter) {R : NT → PM Unit} (h : ∀ nt, Mono (R nt)) : Mono (value G R) := by
  rw [value_eq]
  exact .bind mono_peek fun _ => .bind (.read _) fun _ => .ite mono_literal <| .ite (mono_nested (h _)) <|
    .ite (mono_nested (h _)) <| .ite (errs_bareKeyValue _ _).mono (errs_invalidValue _).mono

theorem mono_errAt (k : PErrorKind) {α : Type} {m : Unit → PM α} (h : Mono (m ())) :
    Mono (currentRange >>= fun r => error k r >>= m) :=
  .bind mono_currentRange fun _ => .bind (mono_error _ _) fun _ => h

theorem mono_body (G : Segmenter) {R : NT → PM Unit} (h : ∀ nt, Mono (R nt)) (nt : NT) : Mono (body G R nt) := by
  cases nt with
  | value => exact mono_value G h
  | array =>
    exact .bind mono_start fun _ => .bind mono_lead fun _ => .bind (.read _) fun _ => .bind (mono_dassert _) fun _ =>
      .bind (mono_eat _) fun _ => .bind mono_trail fun _ => .bind (h _) fun _ => .bind (mono_eat _) fun _ =>
      .ite (mono_errAt _ (.bind mono_trail fun _ => mono_complete _ _)) (.bind mono_trail fun _ => mono_complete _ _)
  | arrayLoop =>
    exact .bind mono_breaks fun _ => .bind mono_dangling fun _ => .bind mono_peek fun _ => .bind (.read _) fun _ =>
      .ite (.pure _) (.bind (h _) fun _ => h _)
  | inlineTable =>
    exact .bind mono_start fun _ => .bind mono_lead fun _ => .bind (.read _) fun _ => .bind (mono_dassert _) fun _ =>
      .bind (mono_eat _) fun _ => .bind mono_trail fun _ => .bind (h _) fun _ => .bind (mono_eat _) fun _ =>
      .ite (mono_errAt _ (.bind mono_trail fun _ => mono_complete _ _)) (.bind mono_trail fun _ => mono_complete _ _)
  | inlineTableLoop =>
    exact .bind mono_breaks fun _ => .bind mono_dangling fun _ => .bind mono_peek fun _ => .bind (.read _) fun _ =>
      .ite (.pure _) (.bind (h _) fun _ => h _)
  | valueGroup => exact .bind mono_start fun _ => .bind (h _) fun _ => mono_complete _ _
  | valueGroupLoop =>
    have e : Mono (peekLeadingComments >>= fun n => PM.read (·.nthAtTs n TS_VALUE_FIRST) >>= fun b =>
      if (!b) = true then Pure.pure () else R .valueGroupLoop) :=
      .bind mono_peek fun _ => .bind (.read _) fun _ => .ite (.pure _) (h _)
    exact .bind mono_isSep fun _ => .ite (.pure _) <| .bind (h _) fun _ => .bind mono_peek fun _ => .bind (.read _) fun _ =>
      .ite (.bind mono_comma fun _ => e) <| .bind (.read _) fun _ => .ite (.pure _) e
  | commaGroup => exact .bind mono_start fun _ => .bind (h _) fun _ => mono_complete _ _
  | commaGroupLoop =>
    have e : Mono (peekLeadingComments >>= fun n => PM.read (·.nthAtTs n TS_KEY_FIRST) >>= fun b =>
      if (!b) = true then Pure.pure () else R .commaGroupLoop) :=
      .bind mono_peek fun _ => .bind (.read _) fun _ => .ite (.pure _) (h _)
    exact .bind mono_isSep fun _ => .ite (.pure _) <| .bind (h _) fun _ => .bind mono_peek fun _ => .bind (.read _) fun _ =>
      .ite (.bind mono_comma fun _ => e) <| .bind (.read _) fun _ => .ite (.pure _) e
  | keyValue =>
    have t : ∀ n, Mono (trailingComment >>= fun _ => complete n KEY_VALUE) := fun n =>
      .bind mono_trail fun _ => mono_complete _ _
    have e : ∀ n, Mono (PM.read (·.atTs TS_LINE_END) >>= fun b => if b = true then invalidToken >>= fun _ =>
        currentRange >>= fun r => error .ExpectedValue r >>= fun _ => trailingComment >>= fun _ => complete n KEY_VALUE
      else PM.read (·.atKind COMMENT) >>= fun b => if b = true then invalidToken >>= fun _ =>
        previousRange >>= fun r => error .ExpectedValue r >>= fun _ => trailingComment >>= fun _ => complete n KEY_VALUE
      else R .value >>= fun _ => trailingComment >>= fun _ => complete n KEY_VALUE) := fun n =>
      .bind (.read _) fun _ => .ite (.bind mono_invalidToken fun _ => mono_errAt _ (t n)) <|
        .bind (.read _) fun _ => .ite (.bind mono_invalidToken fun _ => .bind mono_previousRange fun _ =>
          .bind (mono_error _ _) fun _ => t n) (.bind (h _) fun _ => t n)
    exact .bind mono_start fun _ => .bind mono_lead fun _ => .bind (mono_keys _) fun _ => .bind (mono_eat _) fun _ =>
      .ite (mono_errAt _ (e _)) (e _)
  | keyValueGroup => exact .bind mono_start fun _ => .bind (h _) fun _ => mono_complete _ _
  | keyValueGroupLoop =>
    have e : Mono (PM.read (·.atKind LINE_BREAK) >>= fun b => if (!b) = true then Pure.pure () else
      peekLeadingComments >>= fun n => PM.read (·.nthAtTs n TS_KEY_FIRST) >>= fun b =>
      if (!b) = true then Pure.pure () else R .keyValueGroupLoop) :=
      .bind (.read _) fun _ => .ite (.pure _) <| .bind mono_peek fun _ => .bind (.read _) fun _ => .ite (.pure _) (h _)
    exact .bind mono_isSep fun _ => .ite (.pure _) <| .bind (h _) fun _ => .bind mono_peek fun _ => .bind (.read _) fun _ =>
      .ite (.bind mono_comma fun _ => e) e
  | sectionLoop =>
    exact .bind mono_breaks fun _ => .bind mono_dangling fun _ => .bind mono_peek fun _ => .bind (.read _) fun _ =>
      .ite (.pure _) (.bind (h _) fun _ => .bind (.read _) fun _ =>
        .ite (.bind (errs_invalidLine _).mono fun _ => h _) (h _))
  | table =>
    have t : ∀ n, Mono (R .sectionLoop >>= fun _ => complete n TABLE) := fun n => .bind (h _) fun _ => mono_complete _ _
    have e : ∀ n, Mono (trailingComment >>= fun _ => PM.read (·.atTs TS_LINE_END) >>= fun b => if (!b) = true then
        invalidLine .ExpectedLineBreak >>= fun _ => R .sectionLoop >>= fun _ => complete n TABLE
      else R .sectionLoop >>= fun _ => complete n TABLE) := fun n =>
      .bind mono_trail fun _ => .bind (.read _) fun _ => .ite (.bind (errs_invalidLine _).mono fun _ => t n) (t n)
    exact .bind mono_start fun _ => .bind mono_lead fun _ => .bind (.read _) fun _ => .bind (mono_dassert _) fun _ =>
      .bind (mono_eat _) fun _ => .bind (mono_keys _) fun _ => .bind (mono_eat _) fun _ =>
      .ite (.bind (errs_invalidLine _).mono fun _ => e _) (e _)
  | arrayOfTable =>
    have t : ∀ n, Mono (R .sectionLoop >>= fun _ => complete n ARRAY_OF_TABLE) := fun n =>
      .bind (h _) fun _ => mono_complete _ _
    have e : ∀ n, Mono (trailingComment >>= fun _ => PM.read (·.atTs TS_LINE_END) >>= fun b => if (!b) = true then
        invalidLine .ExpectedLineBreak >>= fun _ => R .sectionLoop >>= fun _ => complete n ARRAY_OF_TABLE
      else R .sectionLoop >>= fun _ => complete n ARRAY_OF_TABLE) := fun n =>
      .bind mono_trail fun _ => .bind (.read _) fun _ => .ite (.bind (errs_invalidLine _).mono fun _ => t n) (t n)
    exact .bind mono_start fun _ => .bind mono_lead fun _ => .bind (.read _) fun _ => .bind (mono_dassert _) fun _ =>
      .bind (mono_eat _) fun _ => .bind (mono_keys _) fun _ => .bind (mono_eat _) fun _ =>
      .ite (.bind (errs_invalidLine _).mono fun _ => e _) (e _)
  | rootLoop =>
    exact .bind mono_breaks fun _ => .bind mono_peek fun _ => .bind (.read _) fun _ => .ite (.pure _) <|
      .bind (.read _) fun _ => .ite (.bind (h _) fun _ => h _) <| .bind (.read _) fun _ =>
      .ite (.bind (h _) fun _ => h _) (.bind errs_unknownLine.mono fun _ => h _)

theorem mono_parseNT (G : Segmenter) (n : Nat) (nt : NT) : Mono (parseNT G n nt) := by
  induction n generalizing nt with
  | zero => exact .throw _
  | succ n ih => exact mono_body G ih nt

/-! ### The grammar -/

section
variable {R : NT → PM Unit} {S : NT → Nat → PV}

theorem Sims.peekIf {mode : Option SyntaxKind} {P : View → Prop} {r : Nat → Parser → Bool} {A B : Nat → PM Unit}
    {f : Nat → PV} (c : View → Bool) (hr : ∀ i p, p.view.drop i = View.peek p.view → r i p = c (View.peek p.view))
    (h1 : Sims mode (fun v => P v ∧ c (View.peek v) = true) A f) (h2 : Sims mode (fun v => P v ∧ c (View.peek v) = false) B f) :
    Sims mode P (fun n => peekLeadingComments >>= fun i => PM.read (r i) >>= fun b => if b = true then A n else B n) f :=
  Sims.peek fun i => Sims.if (fun v => c (View.peek v)) (fun p hp => hr i p hp.2)
    (h1.weaken fun _ h => ⟨h.1.1, h.2⟩) (h2.weaken fun _ h => ⟨h.1.1, h.2⟩)

theorem Sims.peekUnless {mode : Option SyntaxKind} {P : View → Prop} {r : Nat → Parser → Bool} {A B : Nat → PM Unit}
    {f : Nat → PV} (c : View → Bool) (hr : ∀ i p, p.view.drop i = View.peek p.view → r i p = c (View.peek p.view))
    (h1 : Sims mode (fun v => P v ∧ c (View.peek v) = true) B f) (h2 : Sims mode (fun v => P v ∧ c (View.peek v) = false) A f) :
    Sims mode P (fun n => peekLeadingComments >>= fun i => PM.read (r i) >>= fun b => if (!b) = true then A n else B n) f :=
  Sims.peek fun i => Sims.unless (fun v => c (View.peek v)) (fun p hp => hr i p hp.2)
    (h1.weaken fun _ h => ⟨h.1.1, h.2⟩) (h2.weaken fun _ h => ⟨h.1.1, h.2⟩)

theorem nthAtTs_peek (s : TokenSet) (i : Nat) (p : Parser) (h : p.view.drop i = peek p.view) :
    p.nthAtTs i s = s.contains (hd (peek p.view)) := by
  rw [Parser.nthAtTs, p.nth_view, h]

theorem atTs_view (s : TokenSet) (p : Parser) : p.atTs s = s.contains (hd p.view) := by
  rw [Parser.atTs, p.current_view]

theorem nthAt_peek {k : SyntaxKind} (hk : rawOf k = 1) (i : Nat) (p : Parser) (h : p.view.drop i = peek p.view) :
    p.nthAt i k = (hd (peek p.view) == k) := by
  rw [p.nthAt_view i hk, h]

/-- the loops over the groups of an array, an inline table -/
theorem sim_groups {e : TokenSet} {g l : NT} (ih : ∀ nt, Sim Any (R nt) (S nt)) (hm : ∀ nt, Mono (R nt)) :
    Sim Any (eatLineBreaks >>= fun _ => danglingCommentGroups >>= fun _ => peekLeadingComments >>= fun n =>
      PM.read (·.nthAtTs n e) >>= fun b => if b = true then Pure.pure () else R g >>= fun _ => R l)
      (fun d => breaksV ⨟ danglingsV ⨟ fun v =>
        if e.contains (hd (peek v)) then okV v else (S g d ⨟ S l d) v) := by
  refine Sim.of ?_
  refine Sims.seq (g := fun d => danglingsV ⨟ fun v =>
        if e.contains (hd (peek v)) then okV v else (S g d ⨟ S l d) v) sim_breaks (fun _ => .bind mono_dangling fun _ =>
    .bind mono_peek fun _ => .bind (.read _) fun _ => .ite (.pure _) (.bind (hm _) fun _ => hm _)) ?_
  refine Sims.seq (g := fun d v =>
        if e.contains (hd (peek v)) then okV v else (S g d ⨟ S l d) v) sim_danglings (fun _ =>
    .bind mono_peek fun _ => .bind (.read _) fun _ => .ite (.pure _) (.bind (hm _) fun _ => hm _)) ?_
  refine Sims.peekIf (fun v => e.contains (hd v)) (nthAtTs_peek e) ?_ ?_
  · exact Sims.pure.congr fun d v hv => by rw [if_pos hv.2]
  · exact (Sims.seq (g := S l) (Sim.any (ih g)) (fun _ => hm _) (Sims.last (ih l))).congr fun d v hv => by
      rw [if_neg (by rw [hv.2]; simp)]

/-- an array, an inline table -/
theorem sim_bracketed {a b k : SyntaxKind} {l : NT} (hak : a ≠ EOF) (har : rawOf a = 1) (hbk : b ≠ EOF)
    (hbr : rawOf b = 1) {err : PErrorKind} (ih : ∀ nt, Sim Any (R nt) (S nt)) (hm : ∀ nt, Mono (R nt)) :
    Sim Any (start >>= fun m => leadingComments >>= fun _ => PM.read (·.atKind a) >>= fun x => dassert x >>= fun _ =>
      eat a >>= fun _ => trailingComment >>= fun _ => R l >>= fun _ => eat b >>= fun x =>
      if (!x) = true then currentRange >>= fun r => error err r >>= fun _ => trailingComment >>= fun _ => complete m k
      else trailingComment >>= fun _ => complete m k)
      (fun d => nodeV k (leadV ⨟ tokV a ⨟ trailV ⨟ S l d ⨟ tokV b ⨟ trailV)) := by
  refine Sim.node (f := fun d => leadV ⨟ tokV a ⨟ trailV ⨟ S l d ⨟ tokV b ⨟ trailV) ?_
  refine Sims.congr (g := fun d => leadV ⨟ tokV a ⨟ trailV ⨟ S l d ⨟ tokV b ⨟ trailV ⨟ okV) ?_
    (fun d v _ => by rw [seqV_okV])
  have e1 : ∀ n, Mono (trailingComment >>= fun _ => complete n k) := fun n => .bind mono_trail fun _ => mono_complete _ _
  have e2 : ∀ n, Mono (eat b >>= fun x => if (!x) = true then currentRange >>= fun r => error err r >>= fun _ =>
      trailingComment >>= fun _ => complete n k else trailingComment >>= fun _ => complete n k) := fun n =>
    .bind (mono_eat _) fun _ => .ite (mono_errAt _ (e1 n)) (e1 n)
  refine Sims.seq (g := fun d => tokV a ⨟ trailV ⨟ S l d ⨟ tokV b ⨟ trailV ⨟ okV) sim_lead (fun _ =>
    .bind (.read _) fun _ => .bind (mono_dassert _) fun _ => .bind (mono_eat _) fun _ => .bind mono_trail fun _ =>
    .bind (hm _) fun _ => e2 _) ?_
  refine Sims.must (g := fun d => trailV ⨟ S l d ⨟ tokV b ⨟ trailV ⨟ okV) (eats_eat hak har) ?_
  refine Sims.seq (g := fun d => S l d ⨟ tokV b ⨟ trailV ⨟ okV) sim_trail (fun _ => .bind (hm _) fun _ => e2 _) ?_
  refine Sims.seq (g := fun d => tokV b ⨟ trailV ⨟ okV) (ih l) (fun _ => e2 _) ?_
  refine Sims.eatElse (g := fun d => trailV ⨟ okV) (eats_eat hbk hbr) (fun n => .right mono_currentRange fun _ =>
    .left (errs_error _ _) fun _ => e1 n) ?_
  exact Sims.seq sim_trail (fun _ => mono_complete _ _) Sims.done

theorem sim_group {k : SyntaxKind} {l : NT} (ih : ∀ nt, Sim Any (R nt) (S nt)) :
    Sim Any (start >>= fun m => R l >>= fun _ => complete m k) (fun d => nodeV k (S l d)) := by
  refine Sim.node (f := fun d => S l d) ?_
  exact (Sims.seq (g := fun _ => okV) (ih l) (fun _ => mono_complete _ _) Sims.done).congr fun d v _ => by
    rw [seqV_okV]

/-- another item, if there is one -/
theorem sim_more {mode : Option SyntaxKind} {P : View → Prop} {first : TokenSet} {l : NT} (hmode : mode = none)
    (ih : ∀ nt, Sim Any (R nt) (S nt)) :
    Sims mode P (fun _ => peekLeadingComments >>= fun n => PM.read (·.nthAtTs n first) >>= fun b =>
      if (!b) = true then Pure.pure () else R l) (fun d => moreV first (S l d)) := by
  subst hmode
  refine Sims.peekUnless (fun v => first.contains (hd v)) (nthAtTs_peek first) ?_ ?_
  · exact (Sims.last (Sim.any (ih l))).congr fun d v hv => by simp only [moreV, hv.2, if_true]
  · exact Sims.pure.congr fun d v hv => by simp [moreV, hv.2]

theorem isSep_view (p : Parser) : (p.atTs TS_LINE_END && p.nthAtTs 1 TS_LINE_END) = isSep p.view := by
  rw [isSep, atTs_view, Parser.nthAtTs, p.nth_view, hd_tail]

/-- the loops over the items of a group of an array, an inline table -/
theorem sim_items {item loop : NT} {e first : TokenSet} (ih : ∀ nt, Sim Any (R nt) (S nt)) (hm : ∀ nt, Mono (R nt)) :
    Sim Any (isGroupSeparator >>= fun b => if b = true then Pure.pure () else R item >>= fun _ =>
      peekLeadingComments >>= fun n => PM.read (·.nthAt n COMMA) >>= fun b => if b = true then comma >>= fun _ =>
        peekLeadingComments >>= fun n => PM.read (·.nthAtTs n first) >>= fun b =>
          if (!b) = true then Pure.pure () else R loop
      else PM.read (·.nthAtTs n e) >>= fun b => if b = true then Pure.pure () else
        peekLeadingComments >>= fun n => PM.read (·.nthAtTs n first) >>= fun b =>
          if (!b) = true then Pure.pure () else R loop)
      (fun d v => if isSep v then okV v else (S item d ⨟ afterItemV e first (S loop d)) v) := by
  have m1 : Mono (peekLeadingComments >>= fun n => PM.read (·.nthAtTs n first) >>= fun b =>
          if (!b) = true then Pure.pure () else R loop) :=
    .bind mono_peek fun _ => .bind (.read _) fun _ => .ite (.pure _) (hm _)
  refine Sim.of (Sims.if isSep (fun p _ => isSep_view p) ?_ ?_)
  · exact Sims.pure.congr fun d v hv => by simp [hv.2]
  refine Sims.congr (g := fun d => S item d ⨟ afterItemV e first (S loop d)) ?_ fun d v hv => by simp [hv.2]
  refine Sims.seq (g := fun d => afterItemV e first (S loop d)) (Sim.any (ih item)) (fun _ => .bind mono_peek fun _ =>
    .bind (.read _) fun _ => .ite (.bind mono_comma fun _ => m1) (.bind (.read _) fun _ => .ite (.pure _) m1)) ?_
  refine Sims.peek fun i => ?_
  refine Sims.if (fun v => hd (peek v) == COMMA) (fun p hp => nthAt_peek rfl i p hp.2) ?_ ?_
  · refine Sims.congr (g := fun d => commaV ⨟ moreV first (S loop d)) ?_ fun d v hv => ?_
    · exact Sims.seq (g := fun d => moreV first (S loop d)) (Sim.any sim_comma) (fun _ => m1) (sim_more rfl ih)
    · have : hd (peek v) = COMMA := by simpa using hv.2
      simp only [afterItemV, this, if_true]
  · refine Sims.if (fun v => e.contains (hd (peek v))) (fun p hp => nthAtTs_peek e i p hp.1.2) ?_ ?_
    · refine Sims.pure.congr fun d v hv => ?_
      have : ¬ hd (peek v) = COMMA := by simpa using hv.1.2
      simp only [afterItemV, this, if_false, hv.2, if_true]
    · refine Sims.congr (sim_more (l := loop) rfl ih) fun d v hv => ?_
      have : ¬ hd (peek v) = COMMA := by simpa using hv.1.2
      simp [afterItemV, this, hv.2]

theorem sim_pairs (ih : ∀ nt, Sim Any (R nt) (S nt)) (hm : ∀ nt, Mono (R nt)) :
    Sim Any (keyValueGroupLoop R) (keyValueGroupLoopV S) := by
  have m1 : Mono (PM.read (·.atKind LINE_BREAK) >>= fun b => if (!b) = true then Pure.pure () else
      peekLeadingComments >>= fun n => PM.read (·.nthAtTs n TS_KEY_FIRST) >>= fun b =>
      if (!b) = true then Pure.pure () else R .keyValueGroupLoop) :=
      .bind (.read _) fun _ => .ite (.pure _) <| .bind mono_peek fun _ => .bind (.read _) fun _ => .ite (.pure _) (hm _)
  have s1 : ∀ P, Sims none P (fun _ => PM.read (·.atKind LINE_BREAK) >>= fun b => if (!b) = true then Pure.pure () else
      peekLeadingComments >>= fun n => PM.read (·.nthAtTs n TS_KEY_FIRST) >>= fun b =>
      if (!b) = true then Pure.pure () else R .keyValueGroupLoop) (fun d => nextLineV (S .keyValueGroupLoop d)) := by
    intro P
    refine Sims.unless (fun v => hd v == LINE_BREAK) (fun p _ => p.nthAt_view 0 rfl) ?_ ?_
    · refine Sims.congr (sim_more (l := .keyValueGroupLoop) rfl ih) fun d v hv => ?_
      have : hd v = LINE_BREAK := by simpa using hv.2
      simp only [nextLineV, this, if_true]
    · refine Sims.pure.congr fun d v hv => ?_
      have : ¬ hd v = LINE_BREAK := by simpa using hv.2
      simp only [nextLineV, this, if_false]
  refine Sim.of (Sims.if isSep (fun p _ => isSep_view p) ?_ ?_)
  · exact Sims.pure.congr fun d v hv => by simp [keyValueGroupLoopV, hv.2]
  refine Sims.congr (g := fun d => S .keyValue d ⨟ afterPairV (S .keyValueGroupLoop d)) ?_ fun d v hv => by
    simp [keyValueGroupLoopV, hv.2]
  refine Sims.seq (g := fun d => afterPairV (S .keyValueGroupLoop d)) (Sim.any (ih _)) (fun _ => .bind mono_peek fun _ =>
    .bind (.read _) fun _ => .ite (.bind mono_comma fun _ => m1) m1) ?_
  refine Sims.peek fun i => ?_
  refine Sims.if (fun v => hd (peek v) == COMMA) (fun p hp => nthAt_peek rfl i p hp.2) ?_ ?_
  · refine Sims.congr (g := fun d => commaV ⨟ nextLineV (S .keyValueGroupLoop d)) ?_ fun d v hv => ?_
    · exact Sims.seq (g := fun d => nextLineV (S .keyValueGroupLoop d)) (Sim.any sim_comma) (fun _ => m1) (s1 _)
    · have : hd (peek v) = COMMA := by simpa using hv.2
      simp only [afterPairV, this, if_true]
  · refine Sims.congr (s1 _) fun d v hv => ?_
    have : ¬ hd (peek v) = COMMA := by simpa using hv.2
    simp only [afterPairV, this, if_false]

theorem sim_keyValue (G : Segmenter) (ih : ∀ nt, Sim Any (R nt) (S nt)) (hm : ∀ nt, Mono (R nt)) :
    Sim Any (keyValue G R) (keyValueV S) := by
  have t : ∀ n, Mono (trailingComment >>= fun _ => complete n KEY_VALUE) := fun n =>
      .bind mono_trail fun _ => mono_complete _ _
  have e : ∀ n, Mono (PM.read (·.atTs TS_LINE_END) >>= fun b => if b = true then invalidToken >>= fun _ =>
        currentRange >>= fun r => error .ExpectedValue r >>= fun _ => trailingComment >>= fun _ => complete n KEY_VALUE
      else PM.read (·.atKind COMMENT) >>= fun b => if b = true then invalidToken >>= fun _ =>
        previousRange >>= fun r => error .ExpectedValue r >>= fun _ => trailingComment >>= fun _ => complete n KEY_VALUE
      else R .value >>= fun _ => trailingComment >>= fun _ => complete n KEY_VALUE) := fun n =>
      .bind (.read _) fun _ => .ite (.bind mono_invalidToken fun _ => mono_errAt _ (t n)) <|
        .bind (.read _) fun _ => .ite (.bind mono_invalidToken fun _ => .bind mono_previousRange fun _ =>
          .bind (mono_error _ _) fun _ => t n) (.bind (hm _) fun _ => t n)
  let val : Nat → PV := fun d v =>
    if TS_LINE_END.contains (hd v) then none else if hd v = COMMENT then none else S .value d v
  refine Sim.node (f := fun d => leadV ⨟ keysV ⨟ tokV EQUAL ⨟ val d ⨟ trailV) ?_
  refine Sims.congr (g := fun d => leadV ⨟ keysV ⨟ tokV EQUAL ⨟ val d ⨟ trailV ⨟ okV) ?_ (fun d v _ => by rw [seqV_okV])
  refine Sims.seq (g := fun d => keysV ⨟ tokV EQUAL ⨟ val d ⨟ trailV ⨟ okV) sim_lead (fun _ => .bind (mono_keys _) fun _ =>
    .bind (mono_eat _) fun _ => .ite (mono_errAt _ (e _)) (e _)) ?_
  refine Sims.seq (g := fun d => tokV EQUAL ⨟ val d ⨟ trailV ⨟ okV) (sim_keys G) (fun _ =>
    .bind (mono_eat _) fun _ => .ite (mono_errAt _ (e _)) (e _)) ?_
  refine Sims.eatElse (g := fun d => val d ⨟ trailV ⨟ okV) (eats_eat (by decide) rfl) (fun n =>
    .right mono_currentRange fun _ => .left (errs_error _ _) fun _ => e n) ?_
  refine Sims.if (fun v => TS_LINE_END.contains (hd v)) (fun p _ => atTs_view _ p) ?_ ?_
  · exact Sims.errs (fun n => .right mono_invalidToken fun _ => .right mono_currentRange fun _ =>
      .left (errs_error _ _) fun _ => t n) fun d v hv => by simp [seqV, val, hv.2]
  refine Sims.if (fun v => hd v == COMMENT) (fun p _ => p.nthAt_view 0 rfl) ?_ ?_
  · exact Sims.errs (fun n => .right mono_invalidToken fun _ => .right mono_previousRange fun _ =>
      .left (errs_error _ _) fun _ => t n) fun d v hv => by
        have : hd v = COMMENT := by simpa using hv.2
        simp [seqV, val, this]
  · refine Sims.congr (g := fun d => S .value d ⨟ trailV ⨟ okV) ?_ fun d v hv => ?_
    · exact Sims.seq (g := fun _ => trailV ⨟ okV) (Sim.any (ih _)) (fun n => t n)
        (Sims.seq sim_trail (fun _ => mono_complete _ _) Sims.done)
    · have : ¬ hd v = COMMENT := by simpa using hv.2
      simp [seqV, val, this, hv.1.2]

/-- the end of a line, or an error -/
theorem Sims.lineEnd {mode : Option SyntaxKind} {P : View → Prop} {B : Nat → PM Unit} {g : Nat → PV} {k : PErrorKind}
    (hm : ∀ n, Mono (B n)) (h : Sims mode Any B g) :
    Sims mode P (fun n => PM.read (·.atTs TS_LINE_END) >>= fun b => if (!b) = true then
      invalidLine k >>= fun _ => B n else B n) (fun d => lineEndV ⨟ g d) := by
  refine Sims.unless (fun v => TS_LINE_END.contains (hd v)) (fun p _ => atTs_view _ p) ?_ ?_
  · refine h.any.congr fun d v hv => ?_
    simp only [seqV, lineEndV, hv.2, if_true, okV, List.nil_append]
    cases g d v <;> rfl
  · exact Sims.errs (fun n => .left (errs_invalidLine _) fun _ => hm n) fun d v hv => by simp [seqV, lineEndV, hv.2]

theorem sim_section (ih : ∀ nt, Sim Any (R nt) (S nt)) (hm : ∀ nt, Mono (R nt)) :
    Sim Any (sectionLoop R) (sectionLoopV S) := by
  have m1 : Mono (PM.read (·.atTs TS_LINE_END) >>= fun b => if (!b) = true then
      invalidLine .ExpectedLineBreak >>= fun _ => R .sectionLoop else R .sectionLoop) :=
    .bind (.read _) fun _ => .ite (.bind (errs_invalidLine _).mono fun _ => hm _) (hm _)
  refine Sim.of ?_
  refine Sims.seq (g := fun d => danglingsV ⨟ fun v => if TS_NEXT_SECTION.contains (hd (peek v)) then okV v
    else (S .keyValueGroup d ⨟ lineEndV ⨟ S .sectionLoop d) v) sim_breaks (fun _ => .bind mono_dangling fun _ =>
    .bind mono_peek fun _ => .bind (.read _) fun _ => .ite (.pure _) (.bind (hm _) fun _ => m1)) ?_
  refine Sims.seq (g := fun d v => if TS_NEXT_SECTION.contains (hd (peek v)) then okV v
    else (S .keyValueGroup d ⨟ lineEndV ⨟ S .sectionLoop d) v) sim_danglings (fun _ =>
    .bind mono_peek fun _ => .bind (.read _) fun _ => .ite (.pure _) (.bind (hm _) fun _ => m1)) ?_
  refine Sims.peekIf (fun v => TS_NEXT_SECTION.contains (hd v)) (nthAtTs_peek _) ?_ ?_
  · exact Sims.pure.congr fun d v hv => by rw [if_pos hv.2]
  · refine Sims.congr (g := fun d => S .keyValueGroup d ⨟ lineEndV ⨟ S .sectionLoop d) ?_ fun d v hv => by
      rw [if_neg (by rw [hv.2]; simp)]
    exact Sims.seq (g := fun d => lineEndV ⨟ S .sectionLoop d) (Sim.any (ih _)) (fun _ => m1)
      (Sims.lineEnd (fun _ => hm _) (Sims.last (ih _)))

/-- a table, an array of tables -/
theorem sim_header (G : Segmenter) {a b k : SyntaxKind} {fa fb : PV} {err : PErrorKind} (ha : Eats (eat a) fa)
    (hb : Eats (eat b) fb) (ih : ∀ nt, Sim Any (R nt) (S nt)) (hm : ∀ nt, Mono (R nt)) :
    Sim Any (start >>= fun m => leadingComments >>= fun _ => PM.read (·.atKind a) >>= fun x => dassert x >>= fun _ =>
      eat a >>= fun _ => keys G >>= fun _ => eat b >>= fun x => if (!x) = true then invalidLine err >>= fun _ =>
        trailingComment >>= fun _ => PM.read (·.atTs TS_LINE_END) >>= fun b => if (!b) = true then
          invalidLine .ExpectedLineBreak >>= fun _ => R .sectionLoop >>= fun _ => complete m k
          else R .sectionLoop >>= fun _ => complete m k
      else trailingComment >>= fun _ => PM.read (·.atTs TS_LINE_END) >>= fun b => if (!b) = true then
          invalidLine .ExpectedLineBreak >>= fun _ => R .sectionLoop >>= fun _ => complete m k
          else R .sectionLoop >>= fun _ => complete m k)
      (fun d => nodeV k (leadV ⨟ fa ⨟ keysV ⨟ fb ⨟ trailV ⨟ lineEndV ⨟ S .sectionLoop d)) := by
  have t : ∀ n, Mono (R .sectionLoop >>= fun _ => complete n k) := fun n => .bind (hm _) fun _ => mono_complete _ _
  have t2 : ∀ n, Mono (PM.read (·.atTs TS_LINE_END) >>= fun b => if (!b) = true then
        invalidLine .ExpectedLineBreak >>= fun _ => R .sectionLoop >>= fun _ => complete n k
      else R .sectionLoop >>= fun _ => complete n k) := fun n =>
      .bind (.read _) fun _ => .ite (.bind (errs_invalidLine _).mono fun _ => t n) (t n)
  have e : ∀ n, Mono (trailingComment >>= fun _ => PM.read (·.atTs TS_LINE_END) >>= fun b => if (!b) = true then
        invalidLine .ExpectedLineBreak >>= fun _ => R .sectionLoop >>= fun _ => complete n k
      else R .sectionLoop >>= fun _ => complete n k) := fun n => .bind mono_trail fun _ => t2 n
  refine Sim.node (f := fun d => leadV ⨟ fa ⨟ keysV ⨟ fb ⨟ trailV ⨟ lineEndV ⨟ S .sectionLoop d) ?_
  refine Sims.congr (g := fun d => leadV ⨟ fa ⨟ keysV ⨟ fb ⨟ trailV ⨟ lineEndV ⨟ S .sectionLoop d ⨟ okV) ?_
    (fun d v _ => by rw [seqV_okV])
  refine Sims.seq (g := fun d => fa ⨟ keysV ⨟ fb ⨟ trailV ⨟ lineEndV ⨟ S .sectionLoop d ⨟ okV) sim_lead
    (fun _ => .bind (.read _) fun _ => .bind (mono_dassert _) fun _ => .bind (mono_eat _) fun _ =>
      .bind (mono_keys _) fun _ => .bind (mono_eat _) fun _ => .ite (.bind (errs_invalidLine _).mono fun _ => e _) (e _)) ?_
  refine Sims.must (g := fun d => keysV ⨟ fb ⨟ trailV ⨟ lineEndV ⨟ S .sectionLoop d ⨟ okV) ha ?_
  refine Sims.seq (g := fun d => fb ⨟ trailV ⨟ lineEndV ⨟ S .sectionLoop d ⨟ okV) (sim_keys G) (fun _ =>
    .bind (mono_eat _) fun _ => .ite (.bind (errs_invalidLine _).mono fun _ => e _) (e _)) ?_
  refine Sims.eatElse (g := fun d => trailV ⨟ lineEndV ⨟ S .sectionLoop d ⨟ okV) hb (fun n =>
    .left (errs_invalidLine _) fun _ => e n) ?_
  refine Sims.seq (g := fun d => lineEndV ⨟ S .sectionLoop d ⨟ okV) sim_trail t2 ?_
  exact Sims.lineEnd t (Sims.seq (g := fun _ => okV) (ih _) (fun _ => mono_complete _ _) Sims.done)

theorem sim_rootLoop (ih : ∀ nt, Sim Any (R nt) (S nt)) (hm : ∀ nt, Mono (R nt)) :
    Sim Any (rootLoop R) (rootLoopV S) := by
  refine Sim.of ?_
  refine Sims.seq (g := fun d v => if hd (peek v) = EOF then okV v
    else if atPair BRACKET_START (peek v) then (S .arrayOfTable d ⨟ S .rootLoop d) v
    else if hd (peek v) = BRACKET_START then (S .table d ⨟ S .rootLoop d) v
    else none) sim_breaks (fun _ => .bind mono_peek fun _ => .bind (.read _) fun _ => .ite (.pure _) <|
      .bind (.read _) fun _ => .ite (.bind (hm _) fun _ => hm _) <| .bind (.read _) fun _ =>
      .ite (.bind (hm _) fun _ => hm _) (.bind errs_unknownLine.mono fun _ => hm _)) ?_
  refine Sims.peek fun i => ?_
  refine Sims.if (fun v => hd (peek v) == EOF) (fun p hp => nthAt_peek rfl i p hp.2) ?_ ?_
  · exact Sims.pure.congr fun d v hv => by
      have : hd (peek v) = EOF := by simpa using hv.2
      simp only [this, if_true]
  refine Sims.if (fun v => atPair BRACKET_START (peek v)) (fun p hp => by rw [p.nthAt_start i, hp.1.2]) ?_ ?_
  · refine Sims.congr (g := fun d => S .arrayOfTable d ⨟ S .rootLoop d) ?_ fun d v hv => ?_
    · exact Sims.seq (g := S .rootLoop) (Sim.any (ih _)) (fun _ => hm _) (Sims.last (ih _))
    · have : ¬ hd (peek v) = EOF := by simpa using hv.1.2
      simp only [this, if_false, hv.2, if_true]
  refine Sims.if (fun v => hd (peek v) == BRACKET_START) (fun p hp => nthAt_peek rfl i p hp.1.1.2) ?_ ?_
  · refine Sims.congr (g := fun d => S .table d ⨟ S .rootLoop d) ?_ fun d v hv => ?_
    · exact Sims.seq (g := S .rootLoop) (Sim.any (ih _)) (fun _ => hm _) (Sims.last (ih _))
    · have h1 : hd (peek v) = BRACKET_START := by simpa using hv.2
      simp [h1, hv.1.2]
  · refine Sims.errs (fun _ => .left errs_unknownLine fun _ => hm _) fun d v hv => ?_
    have h1 : ¬ hd (peek v) = EOF := by simpa using hv.1.1.2
    have h2 : ¬ hd (peek v) = BRACKET_START := by simpa using hv.2
    simp [h1, h2, hv.1.2]

theorem sim_body (G : Segmenter) (ih : ∀ nt, Sim Any (R nt) (S nt)) (hm : ∀ nt, Mono (R nt)) (nt : NT) :
    Sim Any (body G R nt) (bodyV S nt) := by
  cases nt with
  | value => exact sim_value G ih
  | array => exact sim_bracketed (by decide) rfl (by decide) rfl ih hm
  | arrayLoop => exact sim_groups ih hm
  | inlineTable => exact sim_bracketed (by decide) rfl (by decide) rfl ih hm
  | inlineTableLoop => exact sim_groups ih hm
  | valueGroup => exact sim_group ih
  | valueGroupLoop => exact sim_items ih hm
  | commaGroup => exact sim_group ih
  | commaGroupLoop => exact sim_items ih hm
  | keyValue => exact sim_keyValue G ih hm
  | keyValueGroup => exact sim_group ih
  | keyValueGroupLoop => exact sim_pairs ih hm
  | sectionLoop => exact sim_section ih hm
  | table => exact sim_header G (eats_eat (by decide) rfl) (eats_eat (by decide) rfl) ih hm
  | arrayOfTable => exact sim_header G eats_start eats_end ih hm
  | rootLoop => exact sim_rootLoop ih hm

end

/-- The parser, with the fuel `n`, follows the parser on views, with any more fuel. -/
theorem sim_parseNT (G : Segmenter) (n : Nat) : ∀ m, n ≤ m → ∀ nt, Sim Any (parseNT G n nt) (parseV m nt) := by
  induction n with
  | zero => intro m _ nt p hi _ p' h; cases h
  | succ n ih =>
    intro m hm nt
    cases m with
    | zero => omega
    | succ m => exact sim_body G (ih m (by omega)) (mono_parseNT G n) nt

end Tombi
