import Verif.Proofs.ParserBase
/-! `bump_float_key`: a float used as a key becomes two bare keys and a dot. -/
namespace Tombi
open SyntaxKind
namespace PM

theorem splitDot_zero {w : List Char} (h : w.count '.' = 0) : splitDot w = [w] := by
  induction w with
  | nil => rfl
  | cons c cs ih =>
    have hc : c ≠ '.' := by rintro rfl; simp at h
    have h' : cs.count '.' = 0 := by simpa [List.count_cons, hc] using h
    rw [splitDot, ih h']
    intro he; exact hc he

theorem splitDot_one {w : List Char} (h : w.count '.' = 1) :
    ∃ a b, splitDot w = [a, b] ∧ w = a ++ '.' :: b := by
  induction w with
  | nil => simp at h
  | cons c cs ih =>
    by_cases hc : c = '.'
    · subst hc
      have h' : cs.count '.' = 0 := by simpa using h
      exact ⟨[], cs, by rw [splitDot, splitDot_zero h'], rfl⟩
    · have h' : cs.count '.' = 1 := by simpa [List.count_cons, hc] using h
      obtain ⟨a, b, h1, h2⟩ := ih h'
      refine ⟨c :: a, b, ?_, by rw [h2]; rfl⟩
      rw [splitDot, h1]
      intro he; exact hc he

theorem pushToken_eq (t : Token) (p : Parser) :
    pushToken t p = .ok ((), { p with
      tokens := p.tokens ++ [t]
      events := p.events ++ [.start t.kind, .token t.kind 1, .finish] }) := by
  have hget : (p.events ++ [Event.start TOMBSTONE] ++ [Event.token t.kind 1])[p.events.length]? =
      some (.start TOMBSTONE) := by simp
  show complete p.events.length t.kind { p with
      tokens := p.tokens ++ [t]
      events := p.events ++ [Event.start TOMBSTONE] ++ [Event.token t.kind 1] } = _
  show (match (p.events ++ [Event.start TOMBSTONE] ++ [Event.token t.kind 1])[p.events.length]? with
      | some (.start _) => (do
          set ({ p with
            tokens := p.tokens ++ [t]
            events := (p.events ++ [Event.start TOMBSTONE] ++ [Event.token t.kind 1]).set
              p.events.length (.start t.kind) } : Parser)
          pushEvent .finish : PM Unit)
      | _ => panic) _ = _
  rw [hget]
  show Except.ok _ = _
  simp

theorem bumpFloatKey_spec (G : Segmenter) {p : Parser} (hi : Inv p) (h : p.nth 0 = FLOAT) :
    wp (bumpFloatKey G) (fun _ p' => Ran 1 0 1 0 p p') p := by
  have hne : p.nth 0 ≠ EOF := by rw [h]; decide
  have hrem : 0 < p.rem := by rw [ne_eq, hi.nth_eof] at hne; omega
  refine wp.bind (wp.read ?_)
  refine wp.bind ?_
  rw [h]
  refine ⟨(), p, rfl, ?_⟩
  refine wp.bind (wp.read ?_)
  refine wp.bind (wp.read ?_)
  -- the float token and its text
  have hlen : 0 < (sig p.rest).length := by unfold Parser.rem at hrem; omega
  obtain ⟨A, f, B, h1, h2, h3, h4⟩ := Parser.nthIndexFrom_lt hlen p.pos
  have hf : p.nthToken 0 = f := by
    rw [Parser.nthToken_eq, h1, sig_append, sig_cons_sig h2]
    rw [List.getElem?_append_right (by omega), h3]
    rfl
  have hfk : f.kind = FLOAT := by rw [← h]; unfold Parser.nth; rw [hf]
  obtain ⟨ws, hc1, hc2⟩ := hi.cut
  rw [h1, ← List.append_assoc] at hc1
  obtain ⟨wa, wb, rfl, hca, hcb⟩ := Cut.append.mp hc1
  obtain ⟨w, wb', rfl, hsp, hcb'⟩ := hcb
  have hsrc : p.source = wa.flatten ++ w ++ wb'.flatten := by rw [← hc2]; simp
  have htext : byteSlice f.span.start f.span.stop p.source = some w := by
    rw [hsp, hsrc]
    simpa using byteSlice_append wa.flatten w wb'.flatten
  rw [hf, htext]
  simp only []
  by_cases hdot : '.' ∈ w
  · rw [if_pos hdot]
    -- the parser is at the float itself
    have hdf : DottedFloat p.source f := ⟨hfk, w, htext, hdot⟩
    have hA : A = [] := by
      apply Classical.byContradiction
      intro hA
      have hAt : ∀ t ∈ A, t.kind.isTrivia = true := sig_eq_nil.mp (List.length_eq_zero_iff.mp h3)
      have hin : p.input = p.input.take p.pos ++ A ++ f :: B := by
        rw [List.append_assoc, ← h1]; unfold Parser.rest; rw [List.take_append_drop]
      obtain ⟨x1, x2⟩ := hi.static.attached _ _ _ _ hin hA hAt hdf
      obtain ⟨t, A', rfl⟩ := List.exists_cons_of_ne_nil hA
      have hget : p.input[p.pos]? = some t := by
        have : p.input[p.pos]? = p.rest[0]? := by simp [Parser.rest]
        rw [this, h1]; rfl
      rcases hi.lag t hget (hAt t (by simp)) with h0 | ⟨g, hg, hdg⟩
      · exact x1 (by rw [h0]; rfl)
      · have hpos := hi.pos
        have hp : p.pos ≠ 0 := by rintro h0; exact x1 (by rw [h0]; rfl)
        have hlt : p.pos - 1 < p.input.length := by omega
        rw [List.getElem?_eq_getElem hlt] at hg
        refine x2 (p.input.take (p.pos - 1)) g ?_ hdg
        have hs : p.pos = (p.pos - 1) + 1 := by omega
        have : p.input.take p.pos = p.input.take (p.pos - 1) ++ [p.input[p.pos - 1]] := by
          rw [List.take_append_getElem hlt, ← hs]
        rw [this, Option.some.inj hg]
    subst hA
    have hmem : f ∈ p.input := by
      have : f ∈ p.rest := by rw [h1]; simp
      exact List.mem_of_mem_drop this
    have hle := hi.static.oneDot f hmem w hfk htext
    have hge : 0 < w.count '.' := List.count_pos_iff.mpr hdot
    obtain ⟨a, b, hsplit, hw⟩ := splitDot_one (w := w) (by omega)
    rw [hsplit]
    simp only []
    refine wp.bind ⟨(), _, pushToken_eq _ _, ?_⟩
    refine wp.bind ⟨(), _, pushToken_eq _ _, ?_⟩
    refine wp.bind ⟨(), _, pushToken_eq _ _, ?_⟩
    refine wp.modify ?_
    simp only [madeToken]
    have hrest : p.input.drop (p.pos + 1) = B := by
      have : p.input.drop (p.pos + 1) = p.rest.drop 1 := by simp [Parser.rest]
      rw [this, h1]; rfl
    have hpos1 : p.pos + 1 < p.input.length := by
      have hB : B ≠ [] := by
        rintro rfl
        unfold Parser.rem at hrem
        rw [h1] at hrem
        simp [sig_cons_sig h2] at hrem
      have : (p.input.drop (p.pos + 1)).length ≠ 0 := by
        rw [hrest]; simpa using hB
      simp at this; omega
    refine ⟨rfl, rfl, rfl, ⟨hi.static, hpos1, hi.depth, ?_, ?_⟩, ⟨[f], ?_, ?_, rfl⟩,
      [.start BARE_KEY, .token BARE_KEY 1, .finish, .start DOT, .token DOT 1, .finish,
       .start BARE_KEY, .token BARE_KEY 1, .finish],
      [_, _, _], by simp only [List.append_assoc, List.cons_append, List.nil_append],
      by simp only [List.append_assoc, List.cons_append, List.nil_append]; rfl, ?_, ?_⟩
    · refine ⟨wa ++ (a :: ['.'] :: b :: wb'), ?_, ?_⟩
      · show Cut 0 (_ ++ List.drop (p.pos + 1) p.input) _
        rw [hrest]
        simp only [List.append_assoc, List.cons_append, List.nil_append]
        refine Cut.append.mpr ⟨wa, a :: ['.'] :: b :: wb', rfl, by simpa using hca, ?_⟩
        have e1 : f.span.start = 0 + utf8Len wa.flatten := by rw [hsp]
        refine ⟨a, _, rfl, by rw [e1], ['.'], _, rfl, by rw [e1], b, _, rfl, by rw [e1], ?_⟩
        have : 0 + utf8Len wa.flatten + utf8Len a + utf8Len ['.'] + utf8Len b =
            0 + utf8Len wa.flatten + utf8Len w := by
          rw [hw]; simp; omega
        rw [this]; exact hcb'
      · rw [hsrc, hw]; simp
    · intro t _ _
      right
      refine ⟨f, ?_, hdf⟩
      show p.input[p.pos + 1 - 1]? = some f
      have : p.input[p.pos]? = p.rest[0]? := by simp [Parser.rest]
      rw [Nat.add_sub_cancel, this, h1]; rfl
    · show p.rest = [f] ++ List.drop (p.pos + 1) p.input
      rw [hrest, h1]; rfl
    · simp [sig_cons_sig h2]
    · have hb : ∀ k, k ≠ TOMBSTONE → nestOf k = 0 → ∀ es, Balanced 1 0 0 es →
          Balanced 1 0 0 (.start k :: .token k 1 :: .finish :: es) := by
        intro k hk hn es hes
        have := Balanced.node (h := 0) (n := 0) (h' := 1) (n' := 0) k hk (by omega) (by omega)
          (.tok k 1 (by omega) (by omega) (.nil 0 0)) hes
        simpa using this
      exact hb _ (by decide) (by decide) _ (hb _ (by decide) (by decide) _
        (hb _ (by decide) (by decide) _ (.nil _ _)))
    · exact ⟨[], rfl, by simp⟩
  · rw [if_neg hdot]
    refine wp.seq (start_spec hi) ?_
    rintro m p1 ⟨hs, hi1⟩
    refine wp.seq (bumpRemap_spec hi1 BARE_KEY (by rw [hs.same.1]; exact hne)) ?_
    intro _ p2 hr
    exact (complete_spec hs hr (k := BARE_KEY) (by decide)).mono fun _ _ h => h

end PM
end Tombi
