import Verif.Proofs.ParserStatic
import Verif.Proofs.TreeBuild
/-! The parser from end to end. -/
namespace Tombi
open SyntaxKind

theorem Balanced.errs {h n e : Nat} {evs : List Event} (hb : Balanced h n e evs) :
    (errsOf evs).length = e := by
  induction hb with
  | nil => rfl
  | tok k m _ _ _ ih => simpa [errsOf] using ih
  | err x _ ih => simpa [errsOf] using ih
  | node k _ _ _ _ _ ih1 ih2 =>
    simp only [errsOf] at ih1 ih2
    simp [errsOf, List.filterMap_append, ih1, ih2]

theorem Balanced.wellNested {h n e : Nat} {evs : List Event} (hb : Balanced h n e evs) :
    WellNested evs := by
  induction hb with
  | nil => exact .nil
  | tok k m _ _ _ ih => exact .token k m ih
  | err x _ ih => exact .error x ih
  | node k hk _ _ _ _ ih1 ih2 => exact .node k hk ih1 ih2

theorem inv_new {src : List Char} {input : List Token} (hs : Static src input) :
    Inv (Parser.new src input) := by
  refine ⟨hs, ?_, by simp [Parser.new], ?_, fun _ _ _ => .inl rfl⟩
  · obtain ⟨v, e, h, _⟩ := hs.eof
    simp [Parser.new, h]
  · obtain ⟨ws, h1, h2⟩ := hs.cut
    exact ⟨ws, by simpa [Parser.new, Parser.rest] using h1, h2⟩

/-- at the end of the input only blanks and the end-of-file token are left -/
theorem rest_of_eof {p : Parser} (hi : Inv p) (hn : p.nth 0 = EOF) :
    ∃ v e, p.input = v ++ [e] ∧ (∃ a, p.rest = a ++ [e]) ∧ dw p.rest = [e] := by
  obtain ⟨v, e, he, hk, hv⟩ := hi.static.eof
  have hpos := hi.pos
  have hrest : p.rest = v.drop p.pos ++ [e] := by
    rw [he] at hpos
    simp at hpos
    simp only [Parser.rest, he]
    rw [List.drop_append_of_le_length (by omega)]
  refine ⟨v, e, he, ⟨_, hrest⟩, ?_⟩
  have htr : ∀ t ∈ v.drop p.pos, t.kind.isTrivia = true := by
    apply Classical.byContradiction
    intro hx
    have hlen : p.input.length = v.length + 1 := by rw [he]; simp
    have hgen : ∀ (a : List Token) (pos : Nat), (∀ t ∈ a, t.kind ≠ EOF) →
        (¬ ∀ t ∈ a, t.kind.isTrivia = true) →
        ∃ i t, Parser.nthIndexFrom (a ++ [e]) pos 0 = pos + i ∧ a[i]? = some t ∧ t.kind ≠ EOF := by
      intro a
      induction a with
      | nil => intro _ _ h; exact absurd (by simp) h
      | cons t ts ih =>
        intro pos ha h
        by_cases ht : t.kind.isTrivia = true
        · obtain ⟨i, u, h1, h2, h3⟩ := ih (pos + 1) (fun x hx => ha x (by simp [hx])) (by
            intro hc; apply h; intro x hx
            rcases List.mem_cons.mp hx with rfl | hx
            · exact ht
            · exact hc x hx)
          refine ⟨i + 1, u, ?_, by simpa using h2, h3⟩
          rw [List.cons_append, Parser.nthIndexFrom_triv ht, h1]; omega
        · refine ⟨0, t, ?_, by simp, ha t (by simp)⟩
          rw [List.cons_append, Parser.nthIndexFrom_zero (by simpa using ht)]; rfl
    obtain ⟨i, t, h1, h2, h3⟩ := hgen (v.drop p.pos) p.pos
      (fun t ht => hv t (List.mem_of_mem_drop ht)) hx
    have hidx : p.nthIndex 0 = p.pos + i := by
      unfold Parser.nthIndex
      rw [← h1, ← hrest]
      rfl
    have hil := (List.getElem?_eq_some_iff.mp h2).1
    simp at hil
    rw [List.getElem?_drop] at h2
    have hget : p.input[p.pos + i]? = some t := by
      rw [he, List.getElem?_append_left (by omega)]; exact h2
    apply h3
    rw [← hn]
    unfold Parser.nth Parser.nthToken
    rw [hidx, hget]
    rfl
  rw [hrest]
  unfold dw
  rw [List.dropWhile_append, dropWhile_all htr]
  have : e.kind.isTrivia = false := by rw [hk]; decide
  simp [this]

/-- The parser from end to end. -/
theorem parse_spec (G : Segmenter) (src : List Char) (hlen : utf8Len src < 2 ^ 28)
    (hatt : ∀ l, lex G src = .ok l → FloatsAttached src l.tokens) :
    ∃ l p evs new, lex G src = .ok l ∧ (PM.root G).run (Parser.new src l.tokens) = .ok ((), p) ∧
      p.events = .start ROOT :: (evs ++ [.finish]) ∧ WellNested evs ∧
      parse G src = .ok ⟨.node ROOT new, l.errors.map PError.ofLex ++ errsOf evs, l.lineEnding⟩ ∧
      Green.texts new = src ∧ Green.heights new ≤ 390 ∧ Green.nestings new ≤ 128 := by
  obtain ⟨l, hl, hcount, ⟨v, x, hv, hxs⟩, hst⟩ := lex_static G src
  have hst := hst (hatt l hl)
  have hroot := PM.root_spec G (inv_new hst) rfl rfl rfl
  obtain ⟨u, p, hrun, hi, hsrc, hinp, hn, evs, e, hev, hbal, hem, he⟩ := hroot
  obtain ⟨v', x', hv', ⟨a, ha⟩, hdw⟩ := rest_of_eof hi hn
  have hinp' : p.input = l.tokens := hinp
  have hx : x' = x := by
    rw [hinp', hv] at hv'
    have := List.append_inj_right' hv' rfl
    simpa using this.symm
  subst hx
  obtain ⟨ws, hcut, hflat⟩ := hi.cut
  obtain ⟨R, hR, hRt⟩ := hem
  have hc := consume_append_tokens p.rest (fun k m h => (hbal.pos k m h).1) hR
  have hdR : dw (R ++ p.rest) = [x'] := by
    unfold dw
    rw [List.dropWhile_append, dropWhile_all hRt]
    simpa [dw] using hdw
  have hrem : (Parser.new src l.tokens).rem ≤ src.length := by
    unfold Parser.rem
    have : (sig (Parser.new src l.tokens).rest).length ≤ l.tokens.length := by
      refine Nat.le_trans (List.length_filter_le _ _) ?_
      simp [Parser.new, Parser.rest]
    omega
  have hul : src.length ≤ utf8Len src := length_le_utf8Len src
  have hsrc' : p.source = src := hsrc
  obtain ⟨new, hb, h1, h2, h3⟩ := buildGreenTree_spec (source := src) (T := p.tokens ++ p.rest)
    (ws := ws) ⟨hcut, by rw [hflat, hsrc']⟩ hbal hc hdR (by omega)
    ⟨p.tokens ++ a, by rw [ha, List.append_assoc]⟩ hxs hbal.errs
  refine ⟨l, p, evs, new, hl, hrun, hev, hbal.wellNested, ?_, h1, h2, h3⟩
  have hfin : p.finish = (p.tokens ++ p.rest, p.events) := rfl
  have hrun' : (PM.root G).run (Parser.new src l.tokens) = .ok (u, p) := hrun
  simp only [parse, hl, bind, Except.bind, hrun', hfin, hev, hb]
  rfl

end Tombi
