import Verif.Proofs.ViewSim
/-! The parser follows the parser on views as long as it reports no error: rules, and the parts without recursion. -/
namespace Tombi
open SyntaxKind View PM

theorem wp_ok {α : Type} {m : PM α} {Q : α → Parser → Prop} {p p' : Parser} {a : α} (h : wp m Q p)
    (hr : m p = .ok (a, p')) : Q a p' := by
  obtain ⟨b, p1, h1, h2⟩ := h
  rw [h1] at hr
  cases hr
  exact h2

theorem pm_read_ok {α : Type} {f : Parser → α} {p p' : Parser} {a : α} (h : PM.read f p = .ok (a, p')) :
    a = f p ∧ p' = p := by cases h; exact ⟨rfl, rfl⟩

/-! ### Consuming tokens -/

/-- what `do_bump` does -/
theorem doBump_eq {p : Parser} (hi : Inv p) (k : SyntaxKind) {n : Nat} (hrem : n ≤ p.rem) :
    ∃ A t B, p.rest = A ++ t :: B ∧ t.kind.isTrivia = false ∧ (sig A).length = n ∧
      doBump k n p = .ok ((), Parser.mk p.source p.input (p.pos + A.length) p.depth (p.tokens ++ A)
        (p.events ++ [.token k n])) ∧ p.input.drop (p.pos + A.length) = t :: B := by
  obtain ⟨v, x, hv1, hv2, hv3⟩ := hi.sig_rest
  have hlen : n < (sig p.rest).length := by
    unfold Parser.rem at hrem; rw [hv1] at hrem ⊢; simp at hrem ⊢; omega
  obtain ⟨A, t, B, h1, h2, h3, h4⟩ := Parser.nthIndexFrom_lt hlen p.pos
  have hidx : p.nthIndex n = p.pos + A.length := h4
  have hpos := hi.pos
  have hil : p.input = p.input.take p.pos ++ (A ++ t :: B) := by
    rw [← h1]; unfold Parser.rest; rw [List.take_append_drop]
  have htl : (p.input.take p.pos).length = p.pos := by simp; omega
  have hslice : (p.input.take (p.pos + A.length)).drop p.pos = A := by
    rw [hil, List.take_append, htl]
    rw [List.drop_append]
    simp [htl]
  have hrest : p.input.drop (p.pos + A.length) = t :: B := by
    have : p.input.drop (p.pos + A.length) = (p.input.drop p.pos).drop A.length := by
      rw [List.drop_drop]
    rw [this]
    show p.rest.drop A.length = _
    rw [h1]; simp
  refine ⟨A, t, B, h1, h2, h3, ?_, hrest⟩
  show (if p.pos ≤ p.nthIndex n then _ else _ : PM Unit) _ = _
  rw [hidx, if_pos (by omega)]
  show Except.ok _ = _
  have hidx' : (Parser.mk p.source p.input p.pos p.depth p.tokens
      (p.events ++ [.token k n])).nthIndex n = p.pos + A.length := hidx
  simp only [hidx', hslice]

theorem rem_of_view {p : Parser} (hi : Inv p) {n : Nat} (h : hd (p.view.drop n) ≠ EOF) : n < p.rem := by
  rw [← Parser.nth_view, ne_eq, hi.nth_eof] at h
  omega

theorem sig_first {A : List Token} (h : 0 < (sig A).length) :
    ∃ A' u C, A = A' ++ u :: C ∧ (∀ t ∈ A', t.kind.isTrivia = true) ∧ u.kind.isTrivia = false := by
  obtain ⟨A', u, C, a1, a2, a3, _⟩ := Parser.nthIndexFrom_lt (L := A) (n := 0) h 0
  exact ⟨A', u, C, a1, sig_eq_nil.mp (List.length_eq_zero_iff.mp a3), a2⟩

theorem sig_trivs {A' C : List Token} {u : Token} (hA : ∀ t ∈ A', t.kind.isTrivia = true) (hu : u.kind.isTrivia = false) :
    (sig (A' ++ u :: C)).length = (sig C).length + 1 := by
  rw [sig_append, sig_eq_nil.mpr hA, sig_cons_sig hu]; simp

theorem doBump_one {p p' : Parser} (hi : Inv p) {k : SyntaxKind} (hk : rawOf k = 1) {t : VTok} {v : View}
    (hv : p.view = t :: v) (ht : t.kind ≠ EOF) {a : Unit} (h : doBump k 1 p = .ok (a, p')) :
    Run [.token k t.text] p p' ∧ p'.view = v := by
  have hrem : 0 < p.rem := rem_of_view hi (by simp only [List.drop_zero, hv]; exact ht)
  have hran := wp_ok (doBump_spec hi k (Or.inl rfl) (by omega) (by simp)) h
  obtain ⟨A, t', B, h1, h2, h3, h4, h5⟩ := doBump_eq hi k (n := 1) (by omega)
  rw [h] at h4
  cases h4
  obtain ⟨A', u, C, rfl, hA, hu⟩ := sig_first (A := A) (by omega)
  rw [sig_trivs hA hu] at h3
  have hC : ∀ t ∈ C, t.kind.isTrivia = true := sig_eq_nil.mp (List.length_eq_zero_iff.mp (by omega))
  have hview : p.view = ⟨u.kind, textAt p.source u, jointBefore (C ++ t' :: B)⟩ :: viewOf p.source (t' :: B) := by
    rw [Parser.view, h1, List.append_assoc, viewOf_triv _ _ hA]
    simp only [List.cons_append, viewOf, hu]
    rw [viewOf_triv _ _ hC]
    simp [viewOf]
  rw [hview] at hv
  cases hv
  refine ⟨⟨rfl, rfl, rfl, hran.inv, by simp [evsOfL, evsOf, hk], ⟨_, rfl, ?_⟩, ?_⟩, ?_⟩
  rotate_left
  · exact fun h0 => by
      show NoAdj (p.tokens ++ (A' ++ u :: C) ++ p.input.drop (p.pos + (A' ++ u :: C).length))
      rw [h5, List.append_assoc, ← h1]
      exact h0
  rotate_left
  · simp only [leavesL, leaves, List.append_nil]
    exact (Covers.trivs hA).append (.one hu hk (Covers.trivs hC))
  · show viewOf p.source (p.input.drop _) = _
    rw [h5]

theorem doBump_two {p p' : Parser} (hi : Inv p) {k : SyntaxKind} (hk : rawOf k = 2) {t u : VTok} {v : View}
    (hv : p.view = t :: u :: v) (hue : u.kind ≠ EOF) (hj : t.joint = true) {a : Unit} (h : doBump k 2 p = .ok (a, p')) :
    Run [.token k (t.text ++ u.text)] p p' ∧ p'.view = v := by
  have hrem : 1 < p.rem := rem_of_view hi (by rw [hv]; exact hue)
  have hran := wp_ok (doBump_spec hi k (Or.inr rfl) (by omega)
    (fun _ => by rw [Parser.isJoint_view p 0 (t := t) (v := u :: v) (by simp [hv])]; exact hj)) h
  obtain ⟨A, t', B, h1, h2, h3, h4, h5⟩ := doBump_eq hi k (n := 2) (by omega)
  rw [h] at h4
  cases h4
  obtain ⟨A', w, C, rfl, hA, hw⟩ := sig_first (A := A) (by omega)
  rw [sig_trivs hA hw] at h3
  have hview : p.view = ⟨w.kind, textAt p.source w, jointBefore (C ++ t' :: B)⟩ :: viewOf p.source (C ++ t' :: B) := by
    rw [Parser.view, h1, List.append_assoc, viewOf_triv _ _ hA]
    simp [viewOf, hw]
  rw [hview] at hv
  obtain ⟨e1, e2⟩ := List.cons.inj hv
  subst e1
  cases C with
  | nil => simp at h3
  | cons x C =>
    have hx : x.kind.isTrivia = false := by simpa [jointBefore] using hj
    rw [sig_cons_sig hx] at h3
    have hC : ∀ t ∈ C, t.kind.isTrivia = true := sig_eq_nil.mp (List.length_eq_zero_iff.mp (by simp only [List.length_cons] at h3; omega))
    simp only [List.cons_append, viewOf, hx] at e2
    rw [viewOf_triv _ _ hC] at e2
    simp only [Bool.false_eq_true, if_false, List.cons.injEq] at e2
    obtain ⟨rfl, rfl⟩ := e2
    refine ⟨⟨rfl, rfl, rfl, hran.inv, by simp [evsOfL, evsOf, hk], ⟨_, rfl, ?_⟩, ?_⟩, ?_⟩
    rotate_left
    · exact fun h0 => by
        show NoAdj (p.tokens ++ (A' ++ w :: x :: C) ++ p.input.drop (p.pos + (A' ++ w :: x :: C).length))
        rw [h5, List.append_assoc, ← h1]
        exact h0
    rotate_left
    · simp only [leavesL, leaves, List.append_nil]
      exact (Covers.trivs hA).append (.two hw hx hk (Covers.trivs hC))
    · show viewOf p.source (p.input.drop _) = _
      rw [h5]

/-! ### Rules -/

/-- `m` follows `f`, from views with `P` -/
def Sim (P : View → Prop) (m : PM Unit) (f : Nat → PV) : Prop :=
  ∀ p, Inv p → P p.view → ∀ p', m p = .ok ((), p') → Res p (f p.depth p.view) p'

/-- the parser in which the trees are collected: with a node opened, or not -/
def opened (mode : Option SyntaxKind) (p : Parser) : Parser :=
  match mode with
  | none => p
  | some _ => { p with events := p.events ++ [.start TOMBSTONE] }

/-- the trees at the end: in a node, or not -/
def closed (mode : Option SyntaxKind) (F : List Green) (r : Option (List Green × View)) : Option (List Green × View) :=
  match r with
  | none => none
  | some (F', v) =>
    match mode with
    | none => some (F ++ F', v)
    | some k => some ([.node k (F ++ F')], v)

/-- `m`, with an opened node, follows `f` -/
def Sims (mode : Option SyntaxKind) (P : View → Prop) (m : Nat → PM Unit) (f : Nat → PV) : Prop :=
  ∀ p0 F0 p, Inv p0 → Run F0 (opened mode p0) p → P p.view →
    ∀ p', m p0.events.length p = .ok ((), p') → Res p0 (closed mode F0 (f p.depth p.view)) p'

def Any : View → Prop := fun _ => True

theorem Sim.of {P : View → Prop} {m : PM Unit} {f : Nat → PV} (h : Sims none P (fun _ => m) f) : Sim P m f := by
  intro p hi hp p' hr
  have := h p [] p hi (Run.refl hi) hp p' hr
  cases hf : f p.depth p.view with
  | none => rw [hf] at this; exact this
  | some x => obtain ⟨F, v⟩ := x; rw [hf] at this; exact this

theorem Sim.node {P : View → Prop} {k : SyntaxKind} {m : Nat → PM Unit} {f : Nat → PV} (h : Sims (some k) P m f) :
    Sim P (start >>= m) (fun d => nodeV k (f d)) := by
  intro p hi hp p' hr
  obtain ⟨n, p1, h1, h2⟩ := pm_bind_ok hr
  cases h1
  have := h p [] _ hi (Run.refl (hi.pushEvents _)) hp p' h2
  show Res p (nodeV k (f p.depth) p.view) p'
  unfold nodeV
  cases hf : f p.depth p.view with
  | none =>
    rw [show f (opened (some k) p).depth (opened (some k) p).view = f p.depth p.view from rfl, hf] at this
    exact this
  | some x =>
    obtain ⟨F, v⟩ := x
    rw [show f (opened (some k) p).depth (opened (some k) p).view = f p.depth p.view from rfl, hf] at this
    exact this

theorem nerr_run {F : List Green} {p p' : Parser} (h : Run F p p') : nerr p ≤ nerr p' := by
  rw [nerr, nerr, h.events]
  simp [errsOf]

theorem nerr_opened (mode : Option SyntaxKind) (p : Parser) : nerr (opened mode p) = nerr p := by
  cases mode <;> simp [opened, nerr, errsOf]

theorem opened_depth (mode : Option SyntaxKind) (p : Parser) : (opened mode p).depth = p.depth := by cases mode <;> rfl

theorem Sims.seq {mode : Option SyntaxKind} {P : View → Prop} {a : PM Unit} {b : Nat → PM Unit} {f g : Nat → PV}
    (ha : Sim P a f) (hm : ∀ n, Mono (b n)) (hb : Sims mode Any b g) :
    Sims mode P (fun n => a >>= fun _ => b n) (fun d => f d ⨟ g d) := by
  intro p0 F0 p hi hrun hp p' hr
  obtain ⟨_, p1, h1, h2⟩ := pm_bind_ok hr
  have hres := ha p hrun.inv hp p1 h1
  show Res p0 (closed mode F0 (seqV (f p.depth) (g p.depth) p.view)) p'
  unfold seqV
  cases hf : f p.depth p.view with
  | none =>
    rw [hf] at hres
    have e1 := nerr_run hrun
    have e2 := hm _ _ _ _ h2
    rw [nerr_opened] at e1
    show nerr p0 < nerr p'
    have : nerr p < nerr p1 := hres
    omega
  | some x =>
    obtain ⟨F, v⟩ := x
    rw [hf] at hres
    obtain ⟨r1, r2⟩ := hres
    have := hb p0 (F0 ++ F) p1 hi (hrun.trans r1) trivial p' h2
    rw [r1.depth, r2] at this
    simp only
    cases hg : g p.depth v with
    | none => rw [hg] at this; exact this
    | some y =>
      obtain ⟨F', v'⟩ := y
      rw [hg] at this
      simp only [closed, List.append_assoc] at this ⊢
      exact this

theorem Sims.pure {P : View → Prop} : Sims none P (fun _ => Pure.pure ()) (fun _ => okV) := by
  intro p0 F0 p hi hrun hp p' hr
  obtain ⟨_, rfl⟩ := pure_ok hr
  show Run (F0 ++ []) p0 p ∧ p.view = p.view
  rw [List.append_nil]
  exact ⟨hrun, rfl⟩

theorem Sims.done {P : View → Prop} {k : SyntaxKind} :
    Sims (some k) P (fun n => complete n k) (fun _ => okV) := by
  intro p0 F0 p hi hrun hp p' hr
  have hev : p.events = p0.events ++ .start TOMBSTONE :: evsOfL F0 := by
    rw [hrun.events]; simp [opened]
  have hget : p.events[p0.events.length]? = some (.start TOMBSTONE) := by rw [hev]; simp
  have hset : p.events.set p0.events.length (.start k) = p0.events ++ .start k :: evsOfL F0 := by rw [hev]; simp
  have hr' : (match p.events[p0.events.length]? with
      | some (.start _) => (do
          set { p with events := p.events.set p0.events.length (.start k) }
          pushEvent .finish : PM Unit)
      | _ => panic) p = .ok ((), p') := hr
  rw [hget, hset] at hr'
  cases hr'
  obtain ⟨toks, t1, t2⟩ := hrun.tokens
  refine ⟨⟨hrun.source, hrun.input, hrun.depth, hrun.inv.pushEvents _, ?_, ⟨toks, t1, ?_⟩, hrun.adj⟩, rfl⟩
  · simp [evsOfL, evsOf]
  · simp only [leavesL, leaves, List.append_nil]; exact t2

theorem Sims.congr {mode : Option SyntaxKind} {P : View → Prop} {m : Nat → PM Unit} {f g : Nat → PV}
    (h : Sims mode P m g) (he : ∀ d v, P v → f d v = g d v) : Sims mode P m f := by
  intro p0 F0 p hi hrun hp p' hr
  rw [he _ _ hp]
  exact h p0 F0 p hi hrun hp p' hr

theorem Sims.weaken {mode : Option SyntaxKind} {P Q : View → Prop} {m : Nat → PM Unit} {f : Nat → PV}
    (h : Sims mode Q m f) (he : ∀ v, P v → Q v) : Sims mode P m f :=
  fun p0 F0 p hi hrun hp p' hr => h p0 F0 p hi hrun (he _ hp) p' hr

theorem Sims.any {mode : Option SyntaxKind} {P : View → Prop} {m : Nat → PM Unit} {f : Nat → PV}
    (h : Sims mode Any m f) : Sims mode P m f := h.weaken fun _ _ => trivial

theorem Sim.any {P : View → Prop} {m : PM Unit} {f : Nat → PV} (h : Sim Any m f) : Sim P m f :=
  fun p hi _ p' hr => h p hi trivial p' hr

theorem Sims.errs {mode : Option SyntaxKind} {P : View → Prop} {m : Nat → PM Unit} {f : Nat → PV}
    (h : ∀ n, Errs (m n)) (he : ∀ d v, P v → f d v = none) : Sims mode P m f := by
  intro p0 F0 p hi hrun hp p' hr
  rw [he _ _ hp]
  have e1 := nerr_run hrun
  rw [nerr_opened] at e1
  have := h _ _ _ _ hr
  show nerr p0 < nerr p'
  omega

/-- reading a boolean method -/
theorem Sims.read {mode : Option SyntaxKind} {P : View → Prop} {r : Parser → Bool} {m : Nat → Bool → PM Unit}
    {f : Nat → PV} (c : View → Bool) (hr : ∀ p, Inv p → P p.view → r p = c p.view)
    (h1 : Sims mode (fun v => P v ∧ c v = true) (fun n => m n true) f)
    (h2 : Sims mode (fun v => P v ∧ c v = false) (fun n => m n false) f) :
    Sims mode P (fun n => PM.read r >>= fun b => m n b) f := by
  intro p0 F0 p hi hrun hp p' h
  obtain ⟨b, p1, e1, e2⟩ := pm_bind_ok h
  cases e1
  have hb := hr p hrun.inv hp
  cases hrp : r p with
  | true => rw [hrp] at e2 hb; exact h1 p0 F0 p hi hrun ⟨hp, hb.symm⟩ p' e2
  | false => rw [hrp] at e2 hb; exact h2 p0 F0 p hi hrun ⟨hp, hb.symm⟩ p' e2

/-- reading a method -/
theorem Sims.readAny {α : Type} {mode : Option SyntaxKind} {P : View → Prop} {r : Parser → α} {m : Nat → α → PM Unit}
    {f : Nat → PV} (c : View → α) (hr : ∀ p, Inv p → P p.view → r p = c p.view)
    (h : ∀ a, Sims mode (fun v => P v ∧ c v = a) (fun n => m n a) f) :
    Sims mode P (fun n => PM.read r >>= fun b => m n b) f := by
  intro p0 F0 p hi hrun hp p' h'
  obtain ⟨b, p1, e1, e2⟩ := pm_bind_ok h'
  cases e1
  exact h _ p0 F0 p hi hrun ⟨hp, (hr p hrun.inv hp).symm⟩ p' e2

/-! ### Tokens -/

theorem eat_run {p p' : Parser} (hi : Inv p) {k : SyntaxKind} (hk : k ≠ EOF) (hr : rawOf k = 1) {b : Bool}
    (h : eat k p = .ok (b, p')) :
    (b = true ∧ ∃ t v, p.view = t :: v ∧ t.kind = k ∧ Run [.token k t.text] p p' ∧ p'.view = v) ∨
      (b = false ∧ p' = p ∧ hd p.view ≠ k) := by
  obtain ⟨c, p1, h1, h2⟩ := pm_bind_ok h
  obtain ⟨hc0, rfl⟩ := pm_read_ok h1
  replace hc0 : c = (hd p1.view == k) := hc0.trans (p1.nthAt_view 0 hr)
  by_cases hc : hd p1.view = k
  · rw [hc0, show (hd p1.view == k) = true by simp [hc], if_pos rfl] at h2
    obtain ⟨_, p2, h3, h4⟩ := pm_bind_ok h2
    obtain ⟨rfl, rfl⟩ := pure_ok h4
    cases hv : p1.view with
    | nil => rw [hv] at hc; exact absurd hc.symm hk
    | cons t v =>
      rw [hv] at hc
      have h3' : doBump k (rawOf k) p1 = .ok ((), p2) := h3
      rw [hr] at h3'
      have := doBump_one hi hr hv (by rw [show t.kind = k from hc]; exact hk) h3'
      exact Or.inl ⟨rfl, t, v, rfl, hc, this⟩
  · rw [hc0, show (hd p1.view == k) = false by simp [hc]] at h2
    obtain ⟨rfl, rfl⟩ := pure_ok h2
    exact Or.inr ⟨rfl, rfl, hc⟩

theorem eat_pair {p p' : Parser} (hi : Inv p) {k kk : SyntaxKind} (hk : k ≠ EOF) (hr : rawOf kk = 2)
    (hat : p.atKind kk = atPair k p.view) {b : Bool} (h : eat kk p = .ok (b, p')) :
    (b = true ∧ ∃ t u v, p.view = t :: u :: v ∧ atPair k p.view = true ∧ Run [.token kk (t.text ++ u.text)] p p' ∧
      p'.view = v) ∨ (b = false ∧ p' = p ∧ atPair k p.view = false) := by
  obtain ⟨c, p1, h1, h2⟩ := pm_bind_ok h
  obtain ⟨hc0, rfl⟩ := pm_read_ok h1
  cases hc : atPair k p1.view with
  | true =>
    rw [hc0, hat, hc, if_pos rfl] at h2
    obtain ⟨_, p2, h3, h4⟩ := pm_bind_ok h2
    obtain ⟨rfl, rfl⟩ := pure_ok h4
    match hv : p1.view with
    | [] => rw [hv] at hc; cases hc
    | [_] => rw [hv] at hc; cases hc
    | t :: u :: v =>
      rw [hv] at hc
      simp only [atPair, Bool.and_eq_true, beq_iff_eq] at hc
      have h3' : doBump kk (rawOf kk) p1 = .ok ((), p2) := h3
      rw [hr] at h3'
      have := doBump_two hi hr hv (by rw [hc.1.2]; exact hk) hc.2 h3'
      exact Or.inl ⟨rfl, t, u, v, rfl, rfl, this⟩
  | false =>
    rw [hc0, hat, hc] at h2
    obtain ⟨rfl, rfl⟩ := pure_ok h2
    exact Or.inr ⟨rfl, rfl, rfl⟩

/-- `e` eats the tokens of `f`, or does nothing -/
def Eats (e : PM Bool) (f : PV) : Prop :=
  ∀ p, Inv p → ∀ b p', e p = .ok (b, p') →
    (b = true ∧ ∃ F, f p.view = some (F, p'.view) ∧ Run F p p') ∨ (b = false ∧ p' = p ∧ f p.view = none)

theorem eats_eat {k : SyntaxKind} (hk : k ≠ EOF) (hr : rawOf k = 1) : Eats (eat k) (tokV k) := by
  intro p hi b p' h
  rcases eat_run hi hk hr h with ⟨rfl, t, v, h1, h2, h3, h4⟩ | ⟨rfl, rfl, h1⟩
  · exact Or.inl ⟨rfl, _, by simp [tokV, h1, h2, h4], h3⟩
  · refine Or.inr ⟨rfl, rfl, ?_⟩
    unfold tokV
    split
    · next t v' hv =>
      rw [hv] at h1
      exact if_neg h1
    · rfl

theorem eats_start : Eats (eat DOUBLE_BRACKET_START) (pairV BRACKET_START DOUBLE_BRACKET_START) := by
  intro p hi b p' h
  rcases eat_pair hi (k := BRACKET_START) (by decide) rfl (p.nthAt_start 0) h with ⟨rfl, t, u, v, h1, h2, h3, h4⟩ | ⟨rfl, rfl, h1⟩
  · exact Or.inl ⟨rfl, _, by rw [h1] at h2; simp [pairV, h1, h2, h4], h3⟩
  · refine Or.inr ⟨rfl, rfl, ?_⟩
    unfold pairV
    split
    · next hv => rw [h1]; rfl
    · rfl

theorem eats_end : Eats (eat DOUBLE_BRACKET_END) (pairV BRACKET_END DOUBLE_BRACKET_END) := by
  intro p hi b p' h
  rcases eat_pair hi (k := BRACKET_END) (by decide) rfl (p.nthAt_end 0) h with ⟨rfl, t, u, v, h1, h2, h3, h4⟩ | ⟨rfl, rfl, h1⟩
  · exact Or.inl ⟨rfl, _, by rw [h1] at h2; simp [pairV, h1, h2, h4], h3⟩
  · refine Or.inr ⟨rfl, rfl, ?_⟩
    unfold pairV
    split
    · next hv => rw [h1]; rfl
    · rfl

/-- a token, or an error -/
theorem Sims.eat {mode : Option SyntaxKind} {P : View → Prop} {e : PM Bool} {f : PV} {m : Nat → Bool → PM Unit}
    {g : Nat → PV} (he : Eats e f) (hf : ∀ n, Errs (m n false)) (ht : Sims mode Any (fun n => m n true) g) :
    Sims mode P (fun n => e >>= fun b => m n b) (fun d => f ⨟ g d) := by
  intro p0 F0 p hi hrun hp p' hr
  obtain ⟨b, p1, h1, h2⟩ := pm_bind_ok hr
  show Res p0 (closed mode F0 (seqV f (g p.depth) p.view)) p'
  unfold seqV
  rcases he p hrun.inv b p1 h1 with ⟨rfl, F, hF, hrun1⟩ | ⟨rfl, rfl, hF⟩
  · rw [hF]
    have := ht p0 (F0 ++ F) p1 hi (hrun.trans hrun1) trivial p' h2
    rw [hrun1.depth] at this
    simp only
    cases hg : g p.depth p1.view with
    | none => rw [hg] at this; exact this
    | some y =>
      obtain ⟨F', v'⟩ := y
      rw [hg] at this
      simp only [closed, List.append_assoc] at this ⊢
      exact this
  · rw [hF]
    have e1 := nerr_run hrun
    rw [nerr_opened] at e1
    have := hf _ _ _ _ h2
    show nerr p0 < nerr p'
    omega

/-- `debug_assert!(p.at(k)); p.eat(k)` -/
theorem Sims.must {mode : Option SyntaxKind} {P : View → Prop} {k : SyntaxKind} {f : PV} {m : Nat → PM Unit}
    {g : Nat → PV} (he : Eats (PM.eat k) f) (ht : Sims mode Any m g) :
    Sims mode P (fun n => PM.read (·.atKind k) >>= fun b => dassert b >>= fun _ => PM.eat k >>= fun _ => m n)
      (fun d => f ⨟ g d) := by
  intro p0 F0 p hi hrun hp p' hr
  obtain ⟨b, p1, h1, h2⟩ := pm_bind_ok hr
  cases h1
  obtain ⟨_, p2, h3, h4⟩ := pm_bind_ok h2
  dsimp only at h3
  cases hb : p.atKind k with
  | false => rw [hb] at h3; cases h3
  | true =>
  rw [hb] at h3
  cases h3
  obtain ⟨c, p3, h5, h6⟩ := pm_bind_ok h4
  show Res p0 (closed mode F0 (seqV f (g p.depth) p.view)) p'
  unfold seqV
  have hc : c = true := by
    obtain ⟨c', p4, x1, x2⟩ := pm_bind_ok h5
    obtain ⟨hc0, rfl⟩ := pm_read_ok x1
    rw [hc0.trans hb, if_pos rfl] at x2
    obtain ⟨_, p5, _, x3⟩ := pm_bind_ok x2
    exact (pure_ok x3).1.symm
  rcases he p hrun.inv c p3 h5 with ⟨_, F, hF, hrun1⟩ | ⟨rfl, _⟩
  · rw [hF]
    have := ht p0 (F0 ++ F) p3 hi (hrun.trans hrun1) trivial p' h6
    rw [hrun1.depth] at this
    simp only
    cases hg : g p.depth p3.view with
    | none => rw [hg] at this; exact this
    | some y =>
      obtain ⟨F', v'⟩ := y
      rw [hg] at this
      simp only [closed, List.append_assoc] at this ⊢
      exact this
  · cases hc

/-! ### Loops over tokens -/

theorem spanV_cons {s : SyntaxKind → Bool} {t : VTok} {v : View} (h : s t.kind = true) :
    spanV s (t :: v) = (spanV s v).map fun x => (leaf t :: x.1, x.2) := by
  simp [spanV, h]

theorem eatLoop_run {k : SyntaxKind} (hk : k ≠ EOF) (hr : rawOf k = 1) (n : Nat) :
    Sim Any (eatLoop k n) (fun _ => spanV (fun x => x == k)) := by
  induction n with
  | zero => intro p hi _ p' h; cases h
  | succ n ih =>
    intro p hi _ p' h
    obtain ⟨b, p1, h1, h2⟩ := pm_bind_ok h
    rcases eat_run hi hk hr h1 with ⟨rfl, t, v, e1, e2, e3, e4⟩ | ⟨rfl, rfl, e1⟩
    · have := ih p1 e3.inv trivial p' h2
      show Res p (spanV _ p.view) p'
      rw [e1, spanV_cons (by simp [e2]), ← e4]
      have e5 : leaf t = .token k t.text := by simp [leaf, e2]
      rw [e5]
      exact ⟨e3.trans this.1, this.2⟩
    · obtain ⟨_, rfl⟩ := pure_ok h2
      show Res p1 (spanV _ p1.view) p1
      cases hv : p1.view with
      | nil => exact ⟨by simpa using Run.refl hi, by simp [hv]⟩
      | cons t v =>
        have hne : t.kind ≠ k := by rw [hv] at e1; exact e1
        have : spanV (fun x => x == k) (t :: v) = some ([], t :: v) := by simp [spanV, hne]
        rw [this]
        exact ⟨Run.refl hi, hv⟩

theorem eatTs_run {p p' : Parser} (hi : Inv p) {s : TokenSet} (hs : ∀ k, s.contains k = true → k ≠ EOF ∧ rawOf k = 1)
    {b : Bool} (h : eatTs s p = .ok (b, p')) :
    (b = true ∧ ∃ t v, p.view = t :: v ∧ s.contains t.kind = true ∧ Run [leaf t] p p' ∧ p'.view = v) ∨
      (b = false ∧ p' = p ∧ s.contains (hd p.view) = false) := by
  obtain ⟨c, p1, h1, h2⟩ := pm_bind_ok h
  obtain ⟨hc0, rfl⟩ := pm_read_ok h1
  rw [p1.current_view] at hc0
  subst hc0
  cases hc : s.contains (hd p1.view) with
  | true =>
    obtain ⟨k1, k2⟩ := hs _ hc
    rw [hc, if_pos rfl] at h2
    obtain ⟨_, p2, h3, h4⟩ := pm_bind_ok h2
    obtain ⟨rfl, rfl⟩ := pure_ok h4
    cases hv : p1.view with
    | nil => rw [hv] at k1; exact absurd rfl k1
    | cons t v =>
      rw [hv] at h3 hc k1 k2
      have h3' : doBump t.kind (rawOf t.kind) p1 = .ok ((), p2) := h3
      rw [show rawOf t.kind = 1 from k2] at h3'
      exact Or.inl ⟨rfl, t, v, rfl, hc, doBump_one hi k2 hv k1 h3'⟩
  | false =>
    rw [hc] at h2
    obtain ⟨rfl, rfl⟩ := pure_ok h2
    exact Or.inr ⟨rfl, rfl, rfl⟩

theorem eatTsLoop_run {s : TokenSet} (hs : ∀ k, s.contains k = true → k ≠ EOF ∧ rawOf k = 1) (n : Nat) :
    Sim Any (eatTsLoop s n) (fun _ => spanV (fun x => s.contains x)) := by
  induction n with
  | zero => intro p hi _ p' h; cases h
  | succ n ih =>
    intro p hi _ p' h
    obtain ⟨b, p1, h1, h2⟩ := pm_bind_ok h
    rcases eatTs_run hi hs h1 with ⟨rfl, t, v, e1, e2, e3, e4⟩ | ⟨rfl, rfl, e1⟩
    · have := ih p1 e3.inv trivial p' h2
      show Res p (spanV _ p.view) p'
      rw [e1, spanV_cons e2, ← e4]
      exact ⟨e3.trans this.1, this.2⟩
    · obtain ⟨_, rfl⟩ := pure_ok h2
      show Res p1 (spanV _ p1.view) p1
      cases hv : p1.view with
      | nil => exact ⟨by simpa using Run.refl hi, by simp [hv]⟩
      | cons t v =>
        have hne : s.contains t.kind = false := by rw [hv] at e1; exact e1
        have : spanV (fun x => s.contains x) (t :: v) = some ([], t :: v) := by simp [spanV, hne]
        rw [this]
        exact ⟨Run.refl hi, hv⟩

theorem contains_lead (k : SyntaxKind) : TS_LEADING_COMMENTS_KINDS.contains k = isLead k := by
  rw [Bool.eq_iff_iff, ts_leading]
  simp [isLead]

theorem sim_lead : Sim Any leadingComments (fun _ => leadV) := by
  intro p hi _ p' h
  obtain ⟨n, p1, h1, h2⟩ := pm_bind_ok h
  cases h1
  have := eatTsLoop_run (s := TS_LEADING_COMMENTS_KINDS) (by
    intro k hk
    rcases ts_leading.mp hk with rfl | rfl <;> exact ⟨by decide, rfl⟩) _ p hi trivial p' h2
  rw [show (fun x => TS_LEADING_COMMENTS_KINDS.contains x) = isLead from funext contains_lead] at this
  exact this

theorem sim_trail : Sim Any trailingComment (fun _ => trailV) := by
  intro p hi _ p' h
  obtain ⟨n, p1, h1, h2⟩ := pm_bind_ok h
  cases h1
  exact eatLoop_run (k := COMMENT) (by decide) rfl _ p hi trivial p' h2

theorem sim_breaks : Sim Any eatLineBreaks (fun _ => breaksV) := by
  intro p hi _ p' h
  obtain ⟨n, p1, h1, h2⟩ := pm_bind_ok h
  cases h1
  exact eatLoop_run (k := LINE_BREAK) (by decide) rfl _ p hi trivial p' h2

/-! ### Peeking -/

theorem drop_tail (v : View) (n : Nat) : v.drop (n + 1) = (v.drop n).tail := by simp

theorem peek_cases (v : View) :
    (hd v = LINE_BREAK ∧ peek v = peek v.tail) ∨
    (hd v ≠ LINE_BREAK ∧ hd v = COMMENT ∧ hd v.tail = LINE_BREAK ∧ hd v.tail.tail ≠ LINE_BREAK ∧
      peek v = peek v.tail.tail) ∨
    (hd v ≠ LINE_BREAK ∧ ¬ (hd v = COMMENT ∧ hd v.tail = LINE_BREAK ∧ hd v.tail.tail ≠ LINE_BREAK) ∧ peek v = v) := by
  match v with
  | [] => exact Or.inr (Or.inr ⟨by decide, by simp [hd], rfl⟩)
  | [t] =>
    by_cases h : t.kind = LINE_BREAK
    · exact Or.inl ⟨h, by simp [peek, h]⟩
    · exact Or.inr (Or.inr ⟨h, by simp [hd], by simp [peek, h]⟩)
  | t :: u :: v =>
    by_cases h : t.kind = LINE_BREAK
    · exact Or.inl ⟨h, by simp [peek, h]⟩
    · by_cases h2 : t.kind = COMMENT ∧ u.kind = LINE_BREAK ∧ hd v ≠ LINE_BREAK
      · exact Or.inr (Or.inl ⟨h, h2.1, h2.2.1, h2.2.2, by simp [peek, h2]⟩)
      · exact Or.inr (Or.inr ⟨h, h2, by rw [peek, if_neg h, if_neg h2]⟩)

theorem peekLoop_run {p : Parser} {fuel n r : Nat} (h : peekLeadingCommentsLoop p fuel n = .ok r) :
    p.view.drop r = peek (p.view.drop n) := by
  induction fuel generalizing n with
  | zero => cases h
  | succ fuel ih =>
    rw [peekLeadingCommentsLoop] at h
    simp only [p.nthAt_view _ (k := LINE_BREAK) rfl, p.nthAt_view _ (k := COMMENT) rfl] at h
    have e1 : p.view.drop (n + 1) = (p.view.drop n).tail := drop_tail _ _
    have e2 : p.view.drop (n + 2) = (p.view.drop n).tail.tail := by rw [← drop_tail, ← drop_tail]
    rw [e1, e2] at h
    rcases peek_cases (p.view.drop n) with ⟨a, b⟩ | ⟨a, b, c, d, e⟩ | ⟨a, b, c⟩
    · rw [if_pos (by simp [a])] at h
      rw [ih h, e1, b]
    · rw [if_neg (by simp [a]), if_pos (by rw [b, c]; simpa using d)] at h
      rw [ih h, e2, e]
    · rw [if_neg (by simp [a]), if_neg (by simpa [and_assoc] using b)] at h
      cases h
      rw [c]

theorem peek_run {p p' : Parser} {n : Nat} (h : peekLeadingComments p = .ok (n, p')) :
    p' = p ∧ p.view.drop n = peek p.view := by
  have h' : (liftM (peekLeadingCommentsLoop p (loopFuel p) 0) : PM Nat) p = .ok (n, p') := h
  cases hx : peekLeadingCommentsLoop p (loopFuel p) 0 with
  | error e => rw [hx] at h'; cases h'
  | ok r =>
    rw [hx] at h'
    cases h'
    exact ⟨rfl, by simpa using peekLoop_run hx⟩

theorem Sims.peek {mode : Option SyntaxKind} {P : View → Prop} {m : Nat → Nat → PM Unit} {f : Nat → PV}
    (h : ∀ i, Sims mode (fun v => P v ∧ v.drop i = peek v) (fun n => m n i) f) :
    Sims mode P (fun n => peekLeadingComments >>= fun i => m n i) f := by
  intro p0 F0 p hi hrun hp p' hr
  obtain ⟨i, p1, h1, h2⟩ := pm_bind_ok hr
  obtain ⟨rfl, hx⟩ := peek_run h1
  exact h i p0 F0 p1 hi hrun ⟨hp, hx⟩ p' h2

end Tombi
