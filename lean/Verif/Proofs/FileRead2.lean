import Verif.Proofs.FileRead
/-! The parser on views accepts the lines of a document. -/
namespace Tombi.TomlFile
open SyntaxKind
open Tombi.PM (NT)
open View (hd leaf isLead isSep dangLoop)
open Tombi.Format (AstKey)
open Tombi.Formatter

/-- The tokens of the lines of a document, up to the end. -/
inductive DocW : List Pair → List Sec → View → Prop where
  | end_ {tr wt z} : TrailW tr wt → z.kind = EOF → DocW [] [] (wt ++ [z])
  | blank {tr wt y ps ss v} : TrailW tr wt → y.kind = LINE_BREAK → DocW ps ss v → DocW ps ss (wt ++ y :: v)
  | pairEnd {p w tr wt z} : PairW p w → TrailW tr wt → z.kind = EOF → DocW [p] [] (w ++ (wt ++ [z]))
  | pair {p w tr wt y ps ss v} : PairW p w → TrailW tr wt → y.kind = LINE_BREAK → DocW ps ss v →
      DocW (p :: ps) ss (w ++ (wt ++ y :: v))
  | headerEnd {arr ks ow kw cw tr wt z} : HeadW arr BRACKET_START ow → KeysW ks kw → HeadW arr BRACKET_END cw → TrailW tr wt →
      z.kind = EOF → DocW [] [⟨arr, ks, []⟩] (ow ++ (kw ++ (cw ++ (wt ++ [z]))))
  | header {arr ks ow kw cw tr wt y ps ss v} : HeadW arr BRACKET_START ow → KeysW ks kw → HeadW arr BRACKET_END cw → TrailW tr wt →
      y.kind = LINE_BREAK → DocW ps ss v → DocW [] (⟨arr, ks, ps⟩ :: ss) (ow ++ (kw ++ (cw ++ (wt ++ y :: v))))

theorem map_withBlank (k : Nat) (ss : List Section) : (withBlank k ss).map secOf = ss.map secOf := by
  cases ss <;> rfl

/-- Comments at the end of the text. -/
theorem dang_eof_len {cs : List Text} {w : View} (h : DangW cs w) {z : VTok} (hz : z.kind = EOF) :
    View.dangLen (w ++ [z]) = some w.length := by
  unfold View.dangLen
  rw [if_pos (h.hd _)]
  induction cs generalizing w with
  | nil => exact absurd h id
  | cons c cs ih =>
    cases cs with
    | nil =>
      obtain ⟨x, rfl, hx, -⟩ := h
      rw [List.singleton_append, dangLoop, if_neg (by rw [hz]; decide), if_pos (by decide)]
      rfl
    | cons c' cs =>
      obtain ⟨x, y, w', rfl, hx, -, hy, h⟩ := h
      have hc := h.hd [z]
      rw [List.cons_append, List.cons_append, dangLoop, if_neg (by rw [hy]; decide), if_neg (by rw [hc]; decide),
        if_neg (by rw [hc]; simp), ih h]
      rfl

theorem end_at {G : Gram} (hG : G.Ok) {d br : Nat} {z : VTok} (hz : z.kind = EOF) : LoopRd G d [z] br .nil br [z] := by
  have hb : hd [z] ≠ LINE_BREAK := by show z.kind ≠ _; rw [hz]; decide
  have hc : hd [z] ≠ COMMENT := by show z.kind ≠ _; rw [hz]; decide
  refine loop_end' hG hb ?_ ?_
  · unfold View.dangLen; exact if_neg hc
  · rw [peek_self hb hc]
    show G.end_.contains z.kind = true
    rw [hz]
    exact hG.eof

theorem dang_eof {G : Gram} (hG : G.Ok) {d br : Nat} {cs : List Text} {w : View} {z : VTok} (hw : DangW cs w) (hz : z.kind = EOF) :
    LoopRd G d (w ++ [z]) br (.dangling (blankOf br) cs .nil) 0 [z] := by
  obtain ⟨F, h1, h2, h3, h4, -⟩ := end_at hG (d := d) (br := 0) hz
  have hl := dang_eof_len hw hz
  have h0 : 0 < w.length := by
    match cs, hw with
    | [_], ⟨x, e, hx, _⟩ => subst e; simp
    | _ :: _ :: _, ⟨x, y, w', e, hx, _⟩ => subst e; simp
  have hr := loop_dang hG (d := d) hl h0 (v' := [z]) (F := F) (by rw [List.drop_left]; exact h1)
  rw [List.take_left] at hr
  refine ⟨_, hr, ?_, ?_, ?_, ?_⟩
  · intro y hy
    rcases List.mem_cons.mp hy with rfl | hy
    · exact .inr (.inl ⟨_, rfl⟩)
    · exact h2 y hy
  · intro s tail ht
    have hf : ∀ {α} (x y : α), (if (!true) = true then x else y) = y := fun _ _ => rfl
    rw [List.cons_append, bodyOf, hf]
    simp only [if_true]
    rw [hw.comments, h3 s tail ht]
  · rw [List.foldl_cons, nextBreaks_node, h4]
  · have := hw.hd [z]
    exact ⟨(fun h => by rw [this] at h; cases h), (fun h => by rw [this] at h; cases h)⟩

/-- The lines are read, with comments before them. -/
structure Reads (ps : List Pair) (ss : List Sec) (v : View) : Prop where
  loop : ∀ cs u, LeadW cs u → ∀ br, ∃ b k v' ss', LoopRd gSec 0 (u ++ v) br b k v' ∧ RootRd v' ss' ∧ pairsOf b = ps ∧
    ss'.map secOf = ss
  rest : ∀ y cs u, y.kind = LINE_BREAK → LeadW cs u → ∃ b k v' ss', RestRd gSec 0 (y :: (u ++ v)) b k v' ∧ RootRd v' ss' ∧
    pairsOf b = ps ∧ ss'.map secOf = ss
  peek : ∀ cs u, LeadW cs u → hd (View.peek (u ++ v)) ≠ COMMA

theorem gSec_first {k : SyntaxKind} (h : gSec.first.contains k = true) : isLead k = false ∧ k ≠ EOF ∧ k ≠ COMMA ∧ k ≠ BRACKET_START := by
  revert h; cases k <;> decide

/-- From the loop over groups to what follows an item on the next line, when the group ends. -/
theorem rest_of_loop {ps : List Pair} {ss : List Sec} {v : View} {y : VTok} (hy : y.kind = LINE_BREAK)
    (hk : hd (View.peek v) ≠ COMMA) (hs : gSec.first.contains (hd (View.peek v)) = false ∨ isSep (y :: v) = true)
    (h : ∃ b k v' ss', LoopRd gSec 0 v 1 b k v' ∧ RootRd v' ss' ∧ pairsOf b = ps ∧ ss'.map secOf = ss) :
    ∃ b k v' ss', RestRd gSec 0 (y :: v) b k v' ∧ RootRd v' ss' ∧ pairsOf b = ps ∧ ss'.map secOf = ss := by
  obtain ⟨b, k, v', ss', h1, h2⟩ := h
  refine ⟨b, k, v', ss', rest_stop gSec_ok ?_ ?_ (fun _ => ?_) ?_ (loop_lb' gSec_ok hy h1), h2⟩
  · show y.kind ≠ _; rw [hy]; decide
  · rw [peek_lb hy]; exact hk
  · show TS_LINE_END.contains y.kind = true; rw [hy]; decide
  · rw [peek_lb hy]; exact hs

theorem notFirst {k : SyntaxKind} (h : isLead k = true ∨ k = EOF ∨ k = BRACKET_START) : gSec.first.contains k = false := by
  cases hf : gSec.first.contains k with
  | false => rfl
  | true =>
    obtain ⟨h1, h2, -, h3⟩ := gSec_first hf
    rcases h with h | h | h
    · rw [h1] at h; cases h
    · exact absurd h h2
    · exact absurd h h3

/-- An item at the end of its line, and what follows. -/
theorem reads_pair {p : Pair} {w wt v : View} {tr : Option Text} {ps : List Pair} {ss : List Sec}
    (hi : ItemOk meanPair gSec 0 w (some p)) (ht : TrailW tr wt)
    (ha : ∃ b k v' ss', AfterRd gSec 0 v none b k v' ∧ RootRd v' ss' ∧ pairsOf b = ps ∧ ss'.map secOf = ss) :
    Reads (p :: ps) ss (w ++ (wt ++ v)) := by
  obtain ⟨b0, k, v', ss', hA, hR, hp, hss⟩ := ha
  have hb : ∀ first n, meanPair n = some p → pairsOf (.item first n none b0) = p :: ps := by
    intro first n hn
    cases n with
    | pair l ks t v =>
      simp only [meanPair, Option.some.injEq] at hn
      rw [pairsOf, hp, hn]
    | _ => cases hn
  obtain ⟨x, w', hw, hx⟩ := hi.first
  have hxf := gSec_ok.first _ hx
  refine ⟨fun cs u hu br => ?_, fun y cs u hy hu => ?_, fun cs u hu => ?_⟩
  · obtain ⟨n, hn, hm⟩ := hi.read cs u tr wt hu ht
    exact ⟨_, k, v', ss', by simpa using loop_item gSec_ok (br := br) hn hA, hR, hb _ n hm, hss⟩
  · obtain ⟨n, hn, hm⟩ := hi.read cs u tr wt hu ht
    have hne := hn.hd_ne gSec_ok v
    have hsep : isSep ([y] ++ (u ++ (w ++ wt)) ++ v) = false := by
      show (_ && TS_LINE_END.contains (hd (u ++ (w ++ wt) ++ v))) = false
      rw [Bool.and_eq_false_iff]
      right
      cases hh : TS_LINE_END.contains (hd (u ++ (w ++ wt) ++ v)) with
      | false => rfl
      | true => rcases lineEnd_iff hh with h | h
                · exact absurd h hne.1
                · exact absurd h hne.2
    have := rest_item gSec_ok (p := [y]) (fun z hz => by rw [List.mem_singleton.mp hz]; exact hy) hn hsep
      (by show y.kind ≠ _; rw [hy]; decide) (fun _ => by show TS_LINE_END.contains y.kind = true; rw [hy]; decide) hA
    exact ⟨_, k, v', ss', by simpa using this, hR, hb _ n hm, hss⟩
  · rw [hw, List.cons_append, hu.peek (by exact hxf.1)]
    exact hxf.2.2.1

/-- A header at the end of its line, and what follows. -/
theorem reads_header {arr : Bool} {ks : List AstKey} {ow kw cw wt v : View} {tr : Option Text} {ps : List Pair} {ss : List Sec}
    (ho : HeadW arr BRACKET_START ow) (hk : KeysW ks kw) (hc : HeadW arr BRACKET_END cw) (ht : TrailW tr wt)
    (hl : TS_LINE_END.contains (hd v) = true)
    (h : ∃ b k v' ss', LoopRd gSec 0 v 0 b k v' ∧ RootRd v' ss' ∧ pairsOf b = ps ∧ ss'.map secOf = ss) :
    Reads [] (⟨arr, ks, ps⟩ :: ss) (ow ++ (kw ++ (cw ++ (wt ++ v)))) := by
  obtain ⟨b, k, v', ss', h1, h2, h3, h4⟩ := h
  have hoh : hd (ow ++ (kw ++ (cw ++ (wt ++ v)))) = BRACKET_START := by
    unfold HeadW at ho
    split at ho
    · obtain ⟨y, z, rfl, h, -⟩ := ho; exact h
    · obtain ⟨y, rfl, h⟩ := ho; exact h
  have hlead : isLead (hd (ow ++ (kw ++ (cw ++ (wt ++ v))))) = false := by rw [hoh]; decide
  have hloop : ∀ cs u, LeadW cs u → ∀ br, ∃ b k v' ss', LoopRd gSec 0 (u ++ (ow ++ (kw ++ (cw ++ (wt ++ v))))) br b k v' ∧
      RootRd v' ss' ∧ pairsOf b = [] ∧ ss'.map secOf = ⟨arr, ks, ps⟩ :: ss := by
    intro cs u hu br
    refine ⟨.nil, br, _, _, loop_end' gSec_ok (hu.hd_ne (by rw [hoh]; decide)) (hu.dangLen hlead (by rw [hoh]; decide)) ?_,
      root_section hu ho hk hc ht hl h1 h2, rfl, ?_⟩
    · rw [hu.peek hlead, hoh]; decide
    · rw [List.map_cons, map_withBlank, h4]
      simp [secOf, h3]
  refine ⟨hloop, fun y cs u hy hu => ?_, fun cs u hu => ?_⟩
  · refine rest_of_loop hy ?_ (.inl ?_) (hloop cs u hu 1)
    · rw [hu.peek hlead, hoh]; decide
    · rw [hu.peek hlead, hoh]; decide
  · rw [hu.peek hlead, hoh]; decide

theorem after_eof {z : VTok} (hz : z.kind = EOF) :
    ∃ b k v' ss', AfterRd gSec 0 [z] none b k v' ∧ RootRd v' ss' ∧ pairsOf b = [] ∧ ss'.map secOf = [] := by
  have hb : hd [z] ≠ LINE_BREAK := by show z.kind ≠ _; rw [hz]; decide
  have hc : hd [z] ≠ COMMENT := by show z.kind ≠ _; rw [hz]; decide
  refine ⟨.nil, 0, [z], [], afterRd_none gSec_ok (rest_stop gSec_ok hc ?_ (fun _ => ?_) (.inl ?_) (end_at gSec_ok hz)),
    root_end hz, rfl, rfl⟩
  · rw [peek_self hb hc]; show z.kind ≠ _; rw [hz]; decide
  · show TS_LINE_END.contains z.kind = true; rw [hz]; decide
  · rw [peek_self hb hc]; show gSec.first.contains z.kind = false; rw [hz]; decide

theorem doc_reads {n : Nat} (hn : n ≤ maxRecursionDepth) {ps : List Pair} {ss : List Sec} {v : View} (h : DocW ps ss v)
    (hp : pairsNested n ps) (hs : ∀ s ∈ ss, pairsNested n s.pairs) : Reads ps ss v := by
  induction h with
  | @end_ tr wt z ht hz =>
    have key : ∀ cs u, LeadW cs u → ∀ br, (∃ b k, LoopRd gSec 0 (u ++ (wt ++ [z])) br b k [z] ∧ pairsOf b = []) ∧
        (isLead (hd (View.peek (u ++ (wt ++ [z])))) = true ∨ hd (View.peek (u ++ (wt ++ [z]))) = EOF) := by
      intro cs u hu br
      have hzl : isLead (hd [z]) = false := by show isLead z.kind = false; rw [hz]; decide
      cases tr with
      | none =>
        have ht : wt = [] := ht
        subst ht
        refine ⟨?_, .inr (by rw [List.nil_append, hu.peek hzl]; exact hz)⟩
        by_cases hne : u = []
        · subst hne
          exact ⟨.nil, br, end_at gSec_ok hz, rfl⟩
        · obtain ⟨w, y, rfl, hw, hy⟩ := leadW_dang hu hne
          refine ⟨.dangling (blankOf br) cs .nil, 1, ?_, rfl⟩
          have := loop_dang' gSec_ok (br := br) hw (v := [y, z]) ⟨hy, by show TS_DANGLING_COMMENT_GROUP_END.contains z.kind = true; rw [hz]; decide⟩
            (loop_lb' gSec_ok (d := 0) hy (end_at gSec_ok hz))
          simpa using this
      | some c =>
        obtain ⟨x, rfl, hx, -⟩ := ht
        refine ⟨⟨_, 0, by simpa using dang_eof gSec_ok (d := 0) (br := br) (leadW_dang_snoc hu hx) hz, rfl⟩, .inl ?_⟩
        have : ∀ cs u, LeadW cs u → hd (View.peek (u ++ ([x] ++ [z]))) = COMMENT := by
          intro cs
          induction cs with
          | nil =>
            intro u hu
            have hu : u = [] := hu
            subst hu
            rw [List.nil_append, List.singleton_append, View.peek, if_neg (by rw [hx]; decide), if_neg (by rw [hz]; simp)]
            exact hx
          | cons c cs ih =>
            intro u hu
            obtain ⟨x', y', u', rfl, hx', -, hy', hu'⟩ := hu
            rw [List.cons_append, List.cons_append, View.peek, if_neg (by rw [hx']; decide), if_pos]
            · exact ih u' hu'
            · refine ⟨hx', hy', ?_⟩
              exact hu'.hd_ne (by show x.kind ≠ _; rw [hx]; decide)
        rw [this cs u hu]
        decide
    refine ⟨fun cs u hu br => ?_, fun y cs u hy hu => ?_, fun cs u hu => ?_⟩
    · obtain ⟨⟨b, k, h1, h2⟩, -⟩ := key cs u hu br
      exact ⟨b, k, [z], [], h1, root_end hz, h2, rfl⟩
    · obtain ⟨⟨b, k, h1, h2⟩, h3⟩ := key cs u hu 1
      refine rest_of_loop hy ?_ (.inl (notFirst ?_)) ⟨b, k, [z], [], h1, root_end hz, h2, rfl⟩
      · rcases h3 with h | h
        · intro e; rw [e] at h; cases h
        · rw [h]; decide
      · rcases h3 with h | h
        · exact .inl h
        · exact .inr (.inl h)
    · obtain ⟨-, h3⟩ := key cs u hu 1
      rcases h3 with h | h
      · intro e; rw [e] at h; cases h
      · rw [h]; decide
  | @blank tr wt y ps ss v ht hy _ ih =>
    have ih := ih hp hs
    cases tr with
    | some c =>
      obtain ⟨x, rfl, hx, -⟩ := ht
      refine ⟨fun cs u hu br => ?_, fun y' cs u hy' hu => ?_, fun cs u hu => ?_⟩
      · have := ih.loop _ _ (leadW_snoc hu hx hy) br
        simpa using this
      · have := ih.rest y' _ _ hy' (leadW_snoc hu hx hy)
        simpa using this
      · have := ih.peek _ _ (leadW_snoc hu hx hy)
        simpa using this
    | none =>
      have ht : wt = [] := ht
      subst ht
      have hloop : ∀ cs u, LeadW cs u → ∀ br, ∃ b k v' ss', LoopRd gSec 0 (u ++ y :: v) br b k v' ∧ RootRd v' ss' ∧ pairsOf b = ps ∧
          ss'.map secOf = ss := by
        intro cs u hu br
        by_cases hne : u = []
        · subst hne
          obtain ⟨b, k, v', ss', h1, h2⟩ := ih.loop [] [] rfl (br + 1)
          exact ⟨b, k, v', ss', loop_lb' gSec_ok hy h1, h2⟩
        · obtain ⟨w, y', rfl, hw, hy'⟩ := leadW_dang hu hne
          obtain ⟨b, k, v', ss', h1, h2⟩ := ih.loop [] [] rfl 2
          refine ⟨.dangling (blankOf br) cs b, k, v', ss', ?_, by rw [pairsOf]; exact h2⟩
          have := loop_dang' gSec_ok (br := br) hw (v := y' :: y :: v) ⟨hy', by show TS_DANGLING_COMMENT_GROUP_END.contains y.kind = true; rw [hy]; decide⟩
            (loop_lb' gSec_ok (d := 0) hy' (loop_lb' gSec_ok hy h1))
          simpa using this
      have hpeek : ∀ cs u, LeadW cs u → hd (View.peek (u ++ y :: v)) ≠ COMMA := by
        intro cs u hu
        by_cases hne : u = []
        · subst hne
          rw [List.nil_append, peek_lb hy]
          exact ih.peek [] [] rfl
        · rw [peek_lead_comment hu hne (show hd (y :: v) = _ from hy)]
          decide
      refine ⟨hloop, fun y' cs u hy' hu => ?_, hpeek⟩
      refine rest_of_loop hy' (hpeek cs u hu) ?_ (hloop cs u hu 1)
      by_cases hne : u = []
      · subst hne
        right
        show (TS_LINE_END.contains y'.kind && TS_LINE_END.contains y.kind) = true
        rw [hy, hy']; decide
      · left
        rw [List.nil_append, peek_lead_comment hu hne (show hd (y :: v) = _ from hy)]
        decide
  | @pairEnd p w tr wt z hw ht hz =>
    exact reads_pair (pairs_item ⟨rfl, rfl⟩ n 0 [p] hp (by omega) p (by simp) w hw) ht (after_eof hz)
  | @pair p w tr wt y ps ss v hw ht hy _ ih =>
    have hp' := hp
    rw [pairsNested] at hp'
    refine reads_pair (pairs_item ⟨rfl, rfl⟩ n 0 _ hp (by omega) p (by simp) w hw) ht ?_
    obtain ⟨b, k, v', ss', h1, h2⟩ := (ih hp'.2 hs).rest y [] [] hy rfl
    exact ⟨b, k, v', ss', afterRd_none gSec_ok h1, h2⟩
  | @headerEnd arr ks ow kw cw tr wt z ho hk hc ht hz =>
    exact reads_header ho hk hc ht (by show TS_LINE_END.contains z.kind = true; rw [hz]; decide)
      ⟨.nil, 0, [z], [], end_at gSec_ok hz, root_end hz, rfl, rfl⟩
  | @header arr ks ow kw cw tr wt y ps ss v ho hk hc ht hy _ ih =>
    have ih := ih (hs ⟨arr, ks, ps⟩ (by simp)) (fun s hs' => hs s (by simp [hs']))
    obtain ⟨b, k, v', ss', h1, h2⟩ := ih.loop [] [] rfl 1
    exact reads_header ho hk hc ht (by show TS_LINE_END.contains y.kind = true; rw [hy]; decide)
      ⟨b, k, v', ss', loop_lb' gSec_ok hy h1, h2⟩

/-- The lines of a document are read as that document. -/
theorem doc_root {n : Nat} (hn : n ≤ maxRecursionDepth) {f : File} {v : View} (h : DocW f.pairs f.sections v) (hf : f.Nested n) :
    ∃ cs v' m0, (∀ m, m0 ≤ m → View.rootV m v = some ([.node ROOT cs], v')) ∧ fileOf (docOf (.node ROOT cs)) = f := by
  obtain ⟨b, k, v1, ss, h1, h2, h3, h4⟩ := (doc_reads hn h hf.1 hf.2).loop [] [] rfl 0
  obtain ⟨cs, v', m0, h5, h6⟩ := root_doc (by simpa using h1) h2
  refine ⟨cs, v', m0, h5, ?_⟩
  rw [h6]
  simp only [fileOf, map_withBlank, h3, h4]

end Tombi.TomlFile
