import Verif.Proofs.ViewWords
/-! The parser on views accepts what is laid out as the formatter lays out: the parts of a document. -/
namespace Tombi.Formatter
open SyntaxKind
open Tombi.PM (NT)
open View (hd leaf PV okV seqV nodeV tokV pairV spanV leadV trailV breaksV isLead isComment isBreak isSep keyV keysLoopV keysV
  commaV dangLoop dangLen danglingV danglingsV isLiteral literalV nestedV valueV moreV afterItemV nextLineV afterPairV lineEndV
  bodyV parseV rootV atPair)
open Tombi.Format (AstKey)

/-! ### steps -/

theorem seqV_eq {f g : PV} {v v1 v2 : View} {A B : List Green} (h1 : f v = some (A, v1)) (h2 : g v1 = some (B, v2)) :
    (f ⨟ g) v = some (A ++ B, v2) := by
  unfold seqV
  rw [h1]
  simp only
  rw [h2]

theorem nodeV_eq {k : SyntaxKind} {f : PV} {v v' : View} {A : List Green} (h : f v = some (A, v')) :
    nodeV k f v = some ([.node k A], v') := by
  unfold nodeV
  rw [h]

theorem tokV_eq {k : SyntaxKind} {x : VTok} (h : x.kind = k) (v : View) : tokV k (x :: v) = some ([.token k x.text], v) := by
  unfold tokV
  simp [h]

theorem spanV_eq {s : SyntaxKind → Bool} {u v : View} (hu : ∀ x ∈ u, s x.kind = true) (hv : s (hd v) = false ∨ v = []) :
    spanV s (u ++ v) = some (u.map leaf, v) := by
  unfold spanV
  have h2 : v.takeWhile (fun t => s t.kind) = [] ∧ v.dropWhile (fun t => s t.kind) = v := by
    cases v with
    | nil => exact ⟨rfl, rfl⟩
    | cons t v =>
      have : ¬ s t.kind = true := by
        rcases hv with h | h
        · simpa [hd] using h
        · cases h
      rw [List.takeWhile_cons_of_neg (by exact this), List.dropWhile_cons_of_neg (by exact this)]
      exact ⟨rfl, rfl⟩
  rw [List.takeWhile_append_of_pos hu, List.dropWhile_append_of_pos hu, h2.1, h2.2, List.append_nil]

theorem leadV_eq {u v : View} (hu : Lead u) (hv : isLead (hd v) = false) : leadV (u ++ v) = some (u.map leaf, v) :=
  spanV_eq hu.lead (.inl hv)

theorem breaksV_eq (v : View) : breaksV v = some (lbLeaves v, skip v) := by
  have : ∃ F v', breaksV v = some (F, v') := ⟨_, _, rfl⟩
  obtain ⟨F, v', h⟩ := this
  obtain ⟨rfl, rfl⟩ := breaksV_some h
  exact h

/-- A trailing comment as tokens. -/
def TrailW : Option Text → View → Prop
  | none, w => w = []
  | some c, w => ∃ x, w = [x] ∧ x.kind = COMMENT ∧ x.text = c

theorem trailV_eq {tr : Option Text} {w v : View} (h : TrailW tr w) (hv : hd v ≠ COMMENT) :
    trailV (w ++ v) = some (trailLeaf tr, v) := by
  have hc : isComment (hd v) = false := by simpa [isComment] using hv
  cases tr with
  | none =>
    have h : w = [] := h
    subst h
    exact spanV_eq (u := []) (by simp) (.inl hc)
  | some c =>
    obtain ⟨x, rfl, hk, rfl⟩ := h
    have := spanV_eq (s := isComment) (u := [x]) (v := v) (by simp [isComment, hk]) (.inl hc)
    unfold trailV
    rw [this]
    simp [leaf, hk, trailLeaf]

/-- Leading comments as tokens: one per line. -/
def LeadW : List Text → View → Prop
  | [], u => u = []
  | c :: cs, u => ∃ x y u', u = x :: y :: u' ∧ x.kind = COMMENT ∧ x.text = c ∧ y.kind = LINE_BREAK ∧ LeadW cs u'

theorem LeadW.lead {cs : List Text} {u : View} (h : LeadW cs u) : Lead u := by
  induction cs generalizing u with
  | nil => have h : u = [] := h; subst h; exact ⟨by simp⟩
  | cons c cs ih =>
    obtain ⟨x, y, u', rfl, hx, -, hy, h⟩ := h
    refine ⟨fun t ht => ?_⟩
    rcases List.mem_cons.mp ht with rfl | ht
    · simp [isLead, hx]
    · rcases List.mem_cons.mp ht with rfl | ht
      · simp [isLead, hy]
      · exact (ih h).lead t ht

theorem LeadW.cmts {cs : List Text} {u : View} (h : LeadW cs u) : cmts u = cs := by
  induction cs generalizing u with
  | nil => have h : u = [] := h; subst h; rfl
  | cons c cs ih =>
    obtain ⟨x, y, u', rfl, hx, rfl, hy, h⟩ := h
    have h1 : Formatter.cmts (x :: y :: u') = x.text :: Formatter.cmts u' := by
      have hy' : y.kind ≠ COMMENT := by rw [hy]; decide
      rw [Formatter.cmts, if_pos hx, Formatter.cmts, if_neg hy']
    rw [h1, ih h]

/-- Line breaks only. -/
def AllLb (p : View) : Prop := ∀ x ∈ p, x.kind = LINE_BREAK

theorem AllLb.cons {x : VTok} {p : View} (h : AllLb (x :: p)) : x.kind = LINE_BREAK ∧ AllLb p :=
  ⟨h x (by simp), fun y hy => h y (by simp [hy])⟩

theorem AllLb.lead {p : View} (h : AllLb p) {u : View} (hu : Lead u) : Lead (p ++ u) :=
  ⟨fun t ht => by
    rcases List.mem_append.mp ht with ht | ht
    · simp [isLead, h t ht]
    · exact hu.lead t ht⟩

theorem AllLb.cmts {p : View} (h : AllLb p) (u : View) : cmts (p ++ u) = cmts u := by
  induction p with
  | nil => rfl
  | cons x p ih =>
    obtain ⟨hx, hp⟩ := h.cons
    have hx' : x.kind ≠ COMMENT := by rw [hx]; decide
    rw [List.cons_append, Formatter.cmts, if_neg hx']
    exact ih hp

theorem AllLb.peek {p : View} (h : AllLb p) (v : View) : View.peek (p ++ v) = View.peek v := by
  induction p with
  | nil => rfl
  | cons x p ih =>
    obtain ⟨hx, hp⟩ := h.cons
    rw [List.cons_append, peek_lb hx, ih hp]

theorem AllLb.skip {p : View} (h : AllLb p) {v : View} (hv : hd v ≠ LINE_BREAK) : skip (p ++ v) = v ∧ lbs (p ++ v) = p.length := by
  induction p with
  | nil => exact ⟨(lbs_of_hd hv).2, (lbs_of_hd hv).1⟩
  | cons x p ih =>
    obtain ⟨hx, hp⟩ := h.cons
    rw [List.cons_append, Formatter.skip, lbs, if_pos hx, if_pos hx, (ih hp).1, (ih hp).2]
    exact ⟨rfl, rfl⟩

theorem LeadW.peek {cs : List Text} {u : View} (h : LeadW cs u) {v : View} (hv : isLead (hd v) = false) :
    View.peek (u ++ v) = v := by
  have hv' : hd v ≠ LINE_BREAK ∧ hd v ≠ COMMENT := by
    simp only [isLead, Bool.or_eq_false_iff, beq_eq_false_iff_ne] at hv
    exact ⟨hv.2, hv.1⟩
  induction cs generalizing u with
  | nil => have h : u = [] := h; subst h; exact peek_self hv'.1 hv'.2
  | cons c cs ih =>
    obtain ⟨x, y, u', rfl, hx, -, hy, h⟩ := h
    have hx' : x.kind ≠ LINE_BREAK := by rw [hx]; decide
    rw [List.cons_append, List.cons_append, View.peek, if_neg hx', if_pos]
    · exact ih h
    · refine ⟨hx, hy, ?_⟩
      cases cs with
      | nil => have h : u' = [] := h; subst h; exact hv'.1
      | cons c' cs =>
        obtain ⟨x', y', u'', rfl, hx', -⟩ := h
        show x'.kind ≠ LINE_BREAK
        rw [hx']; decide

theorem LeadW.hd_ne {cs : List Text} {u : View} (h : LeadW cs u) {v : View} (hv : hd v ≠ LINE_BREAK) :
    hd (u ++ v) ≠ LINE_BREAK := by
  cases cs with
  | nil => have h : u = [] := h; subst h; exact hv
  | cons c cs =>
    obtain ⟨x, y, u', rfl, hx, -⟩ := h
    show x.kind ≠ LINE_BREAK
    rw [hx]; decide

/-- Leading comments are not a dangling comment group. -/
theorem LeadW.dangLen {cs : List Text} {u : View} (h : LeadW cs u) {v : View} (hv : isLead (hd v) = false)
    (he : TS_DANGLING_COMMENT_GROUP_END.contains (hd v) = false) : dangLen (u ++ v) = none := by
  have hv' : hd v ≠ LINE_BREAK ∧ hd v ≠ COMMENT := by
    simp only [isLead, Bool.or_eq_false_iff, beq_eq_false_iff_ne] at hv
    exact ⟨hv.2, hv.1⟩
  have main : ∀ (cs : List Text) (u : View), LeadW cs u → cs ≠ [] → dangLoop (u ++ v) = none := by
    intro cs
    induction cs with
    | nil => intro u _ h; exact absurd rfl h
    | cons c cs ih =>
      intro u h _
      obtain ⟨x, y, u', rfl, hx, -, hy, h⟩ := h
      rw [List.cons_append, List.cons_append, dangLoop, if_neg (by rw [hy]; decide)]
      cases cs with
      | nil =>
        have h : u' = [] := h
        subst h
        rw [List.nil_append, if_neg (by rw [he]; decide), if_pos hv'.2]
      | cons c' cs =>
        have ih := ih u' h (by simp)
        obtain ⟨x', y', u'', rfl, hx', -⟩ := h
        have h1 : hd (x' :: y' :: u'' ++ v) = COMMENT := hx'
        rw [if_neg (by rw [h1]; decide), if_neg (by rw [h1]; simp), ih]
  unfold View.dangLen
  cases cs with
  | nil => have h : u = [] := h; subst h; exact if_neg hv'.2
  | cons c cs =>
    split
    · exact main _ _ h (by simp)
    · rfl

/-! ### results for all large fuel -/

/-- The parser succeeds, whatever the fuel, if it is large. -/
def Runs (nt : NT) (d : Nat) (v : View) (F : List Green) (v' : View) : Prop :=
  ∃ m0, ∀ m, m0 ≤ m → parseV m nt d v = some (F, v')

theorem Runs.intro {nt : NT} {d : Nat} {v v' : View} {F : List Green} (m0 : Nat)
    (h : ∀ m, m0 ≤ m → bodyV (parseV m) nt d v = some (F, v')) : Runs nt d v F v' := by
  refine ⟨m0 + 1, fun m hm => ?_⟩
  obtain ⟨m', rfl⟩ : ∃ m', m = m' + 1 := ⟨m - 1, by omega⟩
  exact h m' (by omega)

/-! ### the three kinds of groups -/

/-- The groups of arrays, of inline tables and of tables. -/
structure Gram where
  loop : NT
  group : NT
  gloop : NT
  item : NT
  grp : SyntaxKind
  first : TokenSet
  end_ : TokenSet
  line : Bool

def gArr : Gram := ⟨.arrayLoop, .valueGroup, .valueGroupLoop, .value, VALUE_WITH_COMMA_GROUP, TS_VALUE_FIRST, TS_ARRAY_END, false⟩
def gInl : Gram :=
  ⟨.inlineTableLoop, .commaGroup, .commaGroupLoop, .keyValue, KEY_VALUE_WITH_COMMA_GROUP, TS_KEY_FIRST, TS_INLINE_TABLE_END, false⟩
def gSec : Gram :=
  ⟨.sectionLoop, .keyValueGroup, .keyValueGroupLoop, .keyValue, KEY_VALUE_GROUP, TS_KEY_FIRST, TS_NEXT_SECTION, true⟩

/-- After the dangling comment groups. -/
def Gram.tailV (G : Gram) (rec : NT → Nat → PV) (d : Nat) : PV := fun v =>
  if G.end_.contains (hd (View.peek v)) then okV v
  else match G.line with
    | true => (rec G.group d ⨟ lineEndV ⨟ rec G.loop d) v
    | false => (rec G.group d ⨟ rec G.loop d) v

/-- After an item. -/
def Gram.after (G : Gram) (loop : PV) : PV :=
  match G.line with
  | true => afterPairV loop
  | false => afterItemV G.end_ G.first loop

/-- One of the three. -/
structure Gram.Ok (G : Gram) : Prop where
  loopV : ∀ rec d, bodyV rec G.loop d = breaksV ⨟ danglingsV ⨟ G.tailV rec d
  groupV : ∀ rec d, bodyV rec G.group d = nodeV G.grp (rec G.gloop d)
  gloopV : ∀ rec d v, bodyV rec G.gloop d v = if isSep v then okV v else (rec G.item d ⨟ G.after (rec G.gloop d)) v
  grp : G.grp ≠ DANGLING_COMMENT_GROUP
  sets : G.line = true → G.first = TS_KEY_FIRST
  first : ∀ k, G.first.contains k = true → isLead k = false ∧ TS_DANGLING_COMMENT_GROUP_END.contains k = false ∧
    k ≠ COMMA ∧ G.end_.contains k = false
  eof : G.end_.contains EOF = true

theorem gArr_ok : gArr.Ok :=
  ⟨fun _ _ => rfl, fun _ _ => rfl, fun _ _ _ => rfl, by decide, (fun h => by cases h), fun k => by cases k <;> decide, by decide⟩
theorem gInl_ok : gInl.Ok :=
  ⟨fun _ _ => rfl, fun _ _ => rfl, fun _ _ _ => rfl, by decide, (fun h => by cases h), fun k => by cases k <;> decide, by decide⟩
theorem gSec_ok : gSec.Ok :=
  ⟨fun _ _ => rfl, fun _ _ => rfl, fun _ _ _ => rfl, by decide, fun _ => rfl, fun k => by cases k <;> decide, by decide⟩

theorem danglingV_fuel : (n m : Nat) → (v : View) → v.length < n → v.length < m → danglingV n v = danglingV m v
  | 0, _, _, h, _ => by omega
  | _, 0, _, _, h => by omega
  | n + 1, m + 1, v, h1, h2 => by
    rw [danglingV, danglingV]
    unfold seqV
    rw [breaksV_eq]
    simp only
    cases hl : dangLen (skip v) with
    | none => rfl
    | some k =>
      have hs : (skip v).length ≤ v.length := by
        clear hl h1 h2
        induction v with
        | nil => exact Nat.le_refl _
        | cons t v ih =>
          rw [skip]
          split
          · simp only [List.length_cons]; omega
          · exact Nat.le_refl _
      have hk : 0 < k := by
        unfold dangLen at hl
        split at hl
        · rw [dangLoop.eq_def] at hl
          split at hl
          · split at hl
            · cases hl
            · split at hl
              · cases hl; decide
              · split at hl
                · cases hl
                · split at hl <;> cases hl; omega
          · cases hl; decide
        · cases hl
      have hc : skip v ≠ [] := by
        intro h
        rw [h] at hl
        cases hl
      have hlen : ((skip v).drop k).length < v.length := by
        have : 0 < (skip v).length := by
          cases hv : skip v with
          | nil => exact absurd hv hc
          | cons => simp
        rw [List.length_drop]
        omega
      simp only [nodeV]
      rw [danglingV_fuel n m _ (by omega) (by omega)]

theorem lbLeaves_nil {v : View} (h : hd v ≠ LINE_BREAK) : lbLeaves v = [] := by
  cases v with
  | nil => rfl
  | cons t v => rw [lbLeaves]; exact if_neg h

theorem danglingV_skip (n : Nat) (v : View) {F : List Green} {v' : View}
    (h : danglingV (n + 1) (skip v) = some (F, v')) : danglingV (n + 1) v = some (lbLeaves v ++ F, v') := by
  rw [danglingV] at h ⊢
  obtain ⟨A, B, v1, h1, h2, rfl⟩ := seqV_some h
  obtain ⟨rfl, rfl⟩ := breaksV_some h1
  rw [lbLeaves_nil (hd_skip v), List.nil_append]
  rw [(lbs_of_hd (hd_skip v)).2] at h2
  exact seqV_eq (breaksV_eq v) h2

theorem danglingV_unskip (n : Nat) (v : View) {F : List Green} {v' : View}
    (h : danglingV (n + 1) v = some (F, v')) : ∃ F', danglingV (n + 1) (skip v) = some (F', v') ∧ F = lbLeaves v ++ F' := by
  rw [danglingV] at h ⊢
  obtain ⟨A, B, v1, h1, h2, rfl⟩ := seqV_some h
  obtain ⟨rfl, rfl⟩ := breaksV_some h1
  refine ⟨B, ?_, rfl⟩
  refine seqV_eq (A := []) (v1 := skip v) ?_ h2
  rw [breaksV_eq, lbLeaves_nil (hd_skip v), (lbs_of_hd (hd_skip v)).2]

/-- the loop over groups, whatever the fuel of its first part -/
theorem Gram.Ok.loop_iff {G : Gram} (hG : G.Ok) {rec : NT → Nat → PV} {d : Nat} {v v' : View} {F : List Green} {N : Nat}
    (hN : v.length < N) (h : (danglingV N ⨟ G.tailV rec d) v = some (F, v')) : bodyV rec G.loop d v = some (F, v') := by
  rw [hG.loopV]
  obtain ⟨A, B, v1, h1, h2, rfl⟩ := seqV_some h
  obtain ⟨N', rfl⟩ : ∃ N', N = N' + 1 := ⟨N - 1, by omega⟩
  have hs : (skip v).length ≤ v.length := by
    clear h h1 h2 hN
    induction v with
    | nil => exact Nat.le_refl _
    | cons t v ih =>
      rw [skip]
      split
      · simp only [List.length_cons]; omega
      · exact Nat.le_refl _
  have h3 := danglingV_unskip _ _ h1
  obtain ⟨A', h3, rfl⟩ := h3
  rw [List.append_assoc]
  refine seqV_eq (breaksV_eq v) (seqV_eq ?_ h2)
  unfold danglingsV
  rw [danglingV_fuel _ (N' + 1) _ (by omega) (by omega), h3]

theorem Gram.Ok.loop_of {G : Gram} (hG : G.Ok) {rec : NT → Nat → PV} {d : Nat} {v v' : View} {F : List Green} {N : Nat}
    (hN : v.length < N) (h : bodyV rec G.loop d v = some (F, v')) : (danglingV N ⨟ G.tailV rec d) v = some (F, v') := by
  rw [hG.loopV] at h
  obtain ⟨A, B, v1, h1, h2, rfl⟩ := seqV_some h
  obtain ⟨rfl, rfl⟩ := breaksV_some h1
  obtain ⟨A2, B2, v2, h3, h4, rfl⟩ := seqV_some h2
  obtain ⟨N', rfl⟩ : ∃ N', N = N' + 1 := ⟨N - 1, by omega⟩
  have hs : (skip v).length ≤ v.length := by
    clear h h1 h2 h3 hN
    induction v with
    | nil => exact Nat.le_refl _
    | cons t v ih =>
      rw [skip]
      split
      · simp only [List.length_cons]; omega
      · exact Nat.le_refl _
  rw [← List.append_assoc]
  refine seqV_eq (danglingV_skip _ _ ?_) h4
  unfold danglingsV at h3
  rw [danglingV_fuel _ ((skip v).length + 1) _ (by omega) (by omega), h3]

/-! ### the loop over groups -/

theorem danglingV_none (n : Nat) {v : View} (hb : hd v ≠ LINE_BREAK) (h : dangLen v = none) :
    danglingV (n + 1) v = some ([], v) := by
  have hl : lbLeaves v = [] := by
    cases v with
    | nil => rfl
    | cons t v => rw [lbLeaves]; exact if_neg hb
  rw [danglingV]
  refine seqV_eq (A := []) (B := []) ?_ (v1 := v) ?_
  · rw [breaksV_eq, hl, (lbs_of_hd hb).2]
  · rw [h]; rfl

theorem loop_end {G : Gram} (hG : G.Ok) {d : Nat} {v : View} (hb : hd v ≠ LINE_BREAK) (hd' : dangLen v = none)
    (he : G.end_.contains (hd (View.peek v)) = true) : Runs G.loop d v [] v := by
  refine Runs.intro 0 fun m _ => hG.loop_iff (N := v.length + 1) (by omega) ?_
  refine seqV_eq (A := []) (B := []) (danglingV_none _ hb hd') ?_
  unfold Gram.tailV
  rw [if_pos he]
  rfl

theorem loop_group {G : Gram} (hG : G.Ok) {d : Nat} {v v1 v' : View} {A B : List Green} (hb : hd v ≠ LINE_BREAK)
    (hd' : dangLen v = none) (he : G.end_.contains (hd (View.peek v)) = false) (h1 : Runs G.gloop d v A v1)
    (hl : G.line = true → TS_LINE_END.contains (hd v1) = true) (h2 : Runs G.loop d v1 B v') :
    Runs G.loop d v (.node G.grp A :: B) v' := by
  obtain ⟨m1, h1⟩ := h1
  obtain ⟨m2, h2⟩ := h2
  refine Runs.intro (max (m1 + 1) m2) fun m hm => hG.loop_iff (N := v.length + 1) (by omega) ?_
  have hg : parseV m G.group d v = some ([.node G.grp A], v1) := by
    obtain ⟨m', rfl⟩ : ∃ m', m = m' + 1 := ⟨m - 1, by omega⟩
    show bodyV (parseV m') G.group d v = _
    rw [hG.groupV]
    exact nodeV_eq (h1 m' (by omega))
  refine seqV_eq (A := []) (B := .node G.grp A :: B) (danglingV_none _ hb hd') ?_
  unfold Gram.tailV
  rw [if_neg (by rw [he]; decide)]
  cases hG' : G.line with
  | false => exact seqV_eq hg (h2 m (by omega))
  | true =>
    refine seqV_eq hg (seqV_eq (A := []) (B := B) (v1 := v1) ?_ (h2 m (by omega)))
    unfold lineEndV
    rw [if_pos (hl hG')]
    rfl

theorem loop_lb {G : Gram} (hG : G.Ok) {d : Nat} {x : VTok} (hx : x.kind = LINE_BREAK) {v v' : View} {F : List Green}
    (h : Runs G.loop d v F v') : Runs G.loop d (x :: v) (.token LINE_BREAK x.text :: F) v' := by
  obtain ⟨m0, h⟩ := h
  refine Runs.intro m0 fun m hm => ?_
  have h := h (m + 1) (by omega)
  change bodyV (parseV m) G.loop d v = _ at h
  rw [hG.loopV] at h ⊢
  obtain ⟨A, B, v1, h1, h2, rfl⟩ := seqV_some h
  obtain ⟨rfl, rfl⟩ := breaksV_some h1
  have e1 : breaksV (x :: v) = some (.token LINE_BREAK x.text :: lbLeaves v, skip v) := by
    rw [breaksV_eq, lbLeaves, skip, if_pos hx, if_pos hx]
  rw [← List.cons_append]
  exact seqV_eq e1 h2

theorem loop_dang {G : Gram} (hG : G.Ok) {d k : Nat} {v v' : View} {F : List Green} (hk : dangLen v = some k) (hk0 : 0 < k)
    (h : Runs G.loop d (v.drop k) F v') :
    Runs G.loop d v (.node DANGLING_COMMENT_GROUP ((v.take k).map leaf) :: F) v' := by
  have hc : hd v = COMMENT := by
    unfold dangLen at hk
    split at hk
    · assumption
    · cases hk
  have hb : hd v ≠ LINE_BREAK := by rw [hc]; decide
  have hlen : (v.drop k).length < v.length := by
    cases v with
    | nil => cases hc
    | cons t v => simp only [List.length_drop, List.length_cons]; omega
  obtain ⟨m0, h⟩ := h
  refine Runs.intro m0 fun m hm => hG.loop_iff (N := v.length + 1) (by omega) ?_
  have h := h (m + 1) (by omega)
  change bodyV (parseV m) G.loop d _ = _ at h
  have h := hG.loop_of (N := v.length) hlen h
  obtain ⟨A, B, v1, h1, h2, rfl⟩ := seqV_some h
  rw [← List.cons_append]
  refine seqV_eq ?_ h2
  have hl : lbLeaves v = [] := by
    cases v with
    | nil => rfl
    | cons t v => rw [lbLeaves]; exact if_neg hb
  rw [danglingV]
  refine seqV_eq (A := []) (v1 := v) (B := .node DANGLING_COMMENT_GROUP ((v.take k).map leaf) :: A) ?_ ?_
  · rw [breaksV_eq, hl, (lbs_of_hd hb).2]
  · rw [hk]
    exact seqV_eq (nodeV_eq rfl) h1

/-! ### the loop over the items of a group -/

/-- Another item, or not. -/
def Cont (G : Gram) (d : Nat) (v : View) (F : List Green) (v' : View) : Prop :=
  G.first.contains (hd (View.peek v)) = true ∧ Runs G.gloop d v F v' ∨
    G.first.contains (hd (View.peek v)) = false ∧ F = [] ∧ v' = v

/-- After an item. -/
def After (G : Gram) (d : Nat) (v : View) (F : List Green) (v' : View) : Prop :=
  ∃ m0, ∀ m, m0 ≤ m → G.after (parseV m G.gloop d) v = some (F, v')

theorem Cont.more {G : Gram} {d : Nat} {v v' : View} {F : List Green} (h : Cont G d v F v') :
    ∃ m0, ∀ m, m0 ≤ m → moreV G.first (parseV m G.gloop d) v = some (F, v') := by
  rcases h with ⟨h, m0, hr⟩ | ⟨h, rfl, rfl⟩
  · refine ⟨m0, fun m hm => ?_⟩
    unfold moreV
    rw [if_pos h]
    exact hr m hm
  · refine ⟨0, fun m _ => ?_⟩
    unfold moreV
    rw [if_neg (by rw [h]; decide)]
    rfl

theorem Cont.next {G : Gram} (hs : G.first = TS_KEY_FIRST) {d : Nat} {v v' : View} {F : List Green}
    (h : Cont G d v F v') (hl : TS_LINE_END.contains (hd v) = true) :
    ∃ m0, ∀ m, m0 ≤ m → nextLineV (parseV m G.gloop d) v = some (F, v') := by
  rcases lineEnd_iff hl with hb | he
  · obtain ⟨m0, h⟩ := h.more
    refine ⟨m0, fun m hm => ?_⟩
    unfold nextLineV
    rw [if_pos hb, ← hs]
    exact h m hm
  · have hp : View.peek v = v := peek_self (by rw [he]; decide) (by rw [he]; decide)
    rcases h with ⟨h, -⟩ | ⟨-, rfl, rfl⟩
    · rw [hp, he, hs] at h
      exact absurd h (by decide)
    · refine ⟨0, fun m _ => ?_⟩
      unfold nextLineV
      rw [if_neg (by rw [he]; decide)]
      rfl

theorem after_none {G : Gram} (hG : G.Ok) {d : Nat} {v v' : View} {F : List Green} (hc : hd (View.peek v) ≠ COMMA)
    (hl : G.line = true → TS_LINE_END.contains (hd v) = true) (h : Cont G d v F v') : After G d v F v' := by
  unfold After Gram.after
  cases hG' : G.line with
  | true =>
    obtain ⟨m0, h⟩ := h.next (hG.sets hG') (hl hG')
    refine ⟨m0, fun m hm => ?_⟩
    show afterPairV _ v = _
    unfold afterPairV
    rw [if_neg hc]
    exact h m hm
  | false =>
    have hcont := h
    obtain ⟨m0, h⟩ := h.more
    refine ⟨m0, fun m hm => ?_⟩
    show afterItemV _ _ _ v = _
    unfold afterItemV
    rw [if_neg hc]
    split
    · rename_i he
      rcases hcont with ⟨hf, -⟩ | ⟨-, rfl, rfl⟩
      · rw [(hG.first _ hf).2.2.2] at he; cases he
      · rfl
    · exact h m hm

theorem after_comma {G : Gram} (hG : G.Ok) {d : Nat} {v v1 v' : View} {A F : List Green} (hc : hd (View.peek v) = COMMA)
    (hcv : commaV v = some (A, v1))
    (hl : G.line = true → TS_LINE_END.contains (hd v1) = true) (h : Cont G d v1 F v') : After G d v (A ++ F) v' := by
  unfold After Gram.after
  cases hG' : G.line with
  | true =>
    obtain ⟨m0, h⟩ := h.next (hG.sets hG') (hl hG')
    refine ⟨m0, fun m hm => ?_⟩
    show afterPairV _ v = _
    unfold afterPairV
    rw [if_pos hc]
    exact seqV_eq hcv (h m hm)
  | false =>
    obtain ⟨m0, h⟩ := h.more
    refine ⟨m0, fun m hm => ?_⟩
    show afterItemV _ _ _ v = _
    unfold afterItemV
    rw [if_pos hc]
    exact seqV_eq hcv (h m hm)

theorem gloop_item {G : Gram} (hG : G.Ok) {d : Nat} {v v1 v' : View} {A F : List Green} (hs : isSep v = false)
    (hi : Runs G.item d v A v1) (ha : After G d v1 F v') : Runs G.gloop d v (A ++ F) v' := by
  obtain ⟨m1, hi⟩ := hi
  obtain ⟨m2, ha⟩ := ha
  refine Runs.intro (max m1 m2) fun m hm => ?_
  rw [hG.gloopV, if_neg (by rw [hs]; decide)]
  exact seqV_eq (hi m (by omega)) (ha m (by omega))

theorem gloop_sep {G : Gram} (hG : G.Ok) {d : Nat} {v : View} (hs : isSep v = true) : Runs G.gloop d v [] v := by
  refine Runs.intro 0 fun m _ => ?_
  rw [hG.gloopV, if_pos hs]
  rfl

/-! ### bodies -/

/-- Nothing that belongs to a body. -/
def Silent (grp : SyntaxKind) (tail : List Green) : Prop := ∀ s br, bodyOf s grp true br tail = .nil

/-- The loop over groups reads `b`; `k` line breaks stand at the end. -/
def LoopRd (G : Gram) (d : Nat) (v : View) (br : Nat) (b : Body) (k : Nat) (v' : View) : Prop :=
  ∃ F, Runs G.loop d v F v' ∧ Inner G.grp F ∧ (∀ s tail, Silent G.grp tail → bodyOf s G.grp true br (F ++ tail) = b) ∧
    F.foldl nextBreaks br = k ∧ Starts v F

/-- After an item and its comma: the rest of the group and of the body is `b`. -/
def RestRd (G : Gram) (d : Nat) (v : View) (b : Body) (k : Nat) (v' : View) : Prop :=
  hd v ≠ COMMENT ∧ hd (View.peek v) ≠ COMMA ∧ (G.line = true → TS_LINE_END.contains (hd v) = true) ∧
  ∃ F v1 F2, Cont G d v F v1 ∧ (G.line = true → TS_LINE_END.contains (hd v1) = true) ∧ Runs G.loop d v1 F2 v' ∧
    commaAfter F = none ∧ Inner G.grp F2 ∧
    (∀ s tail, Silent G.grp tail → groupOf none F (bodyOf s G.grp true 0 (F2 ++ tail)) = b) ∧ F2.foldl nextBreaks 0 = k

/-- After an item: its comma, and the rest. -/
def AfterRd (G : Gram) (d : Nat) (v : View) (c : Option Comma) (b : Body) (k : Nat) (v' : View) : Prop :=
  hd v ≠ COMMENT ∧
  ∃ F v1 F2, After G d v F v1 ∧ (G.line = true → TS_LINE_END.contains (hd v1) = true) ∧ Runs G.loop d v1 F2 v' ∧
    commaAfter F = c ∧ Inner G.grp F2 ∧
    (∀ s tail, Silent G.grp tail → groupOf none F (bodyOf s G.grp true 0 (F2 ++ tail)) = b) ∧ F2.foldl nextBreaks 0 = k

/-- An item. -/
structure ItemRd (G : Gram) (d : Nat) (w : View) (n : Node) : Prop where
  start : ∃ cs u x w', w = u ++ x :: w' ∧ LeadW cs u ∧ G.first.contains x.kind = true
  run : ∀ p rest, AllLb p → hd rest ≠ COMMENT → ∃ g, Runs G.item d (p ++ w ++ rest) [g] rest ∧
    isItemKind (kindOf g) = true ∧ nodeOf g = some n

theorem ItemRd.peek {G : Gram} (hG : G.Ok) {d : Nat} {w : View} {n : Node} (h : ItemRd G d w n) {p : View} (hp : AllLb p)
    (rest : View) : G.first.contains (hd (View.peek (p ++ w ++ rest))) = true := by
  obtain ⟨cs, u, x, w', rfl, hu, hx⟩ := h.start
  rw [List.append_assoc, hp.peek, List.append_assoc, hu.peek]
  · exact hx
  · exact (hG.first _ hx).1

theorem ItemRd.hd_ne {G : Gram} (hG : G.Ok) {d : Nat} {w : View} {n : Node} (h : ItemRd G d w n) (rest : View) :
    hd (w ++ rest) ≠ LINE_BREAK ∧ hd (w ++ rest) ≠ EOF := by
  obtain ⟨cs, u, x, w', rfl, hu, hx⟩ := h.start
  have h1 := hG.first _ hx
  cases cs with
  | nil =>
    have hu : u = [] := hu
    subst hu
    refine ⟨?_, ?_⟩
    · show x.kind ≠ _
      intro he; rw [he] at h1; exact absurd h1.1 (by decide)
    · show x.kind ≠ _
      intro he; rw [he] at h1; exact absurd h1.2.1 (by decide)
  | cons c cs =>
    obtain ⟨y, z, u', rfl, hy, -⟩ := hu
    refine ⟨?_, ?_⟩ <;> (show y.kind ≠ _; rw [hy]; decide)

theorem ItemRd.dangLen {G : Gram} (hG : G.Ok) {d : Nat} {w : View} {n : Node} (h : ItemRd G d w n) (rest : View) :
    dangLen (w ++ rest) = none := by
  obtain ⟨cs, u, x, w', rfl, hu, hx⟩ := h.start
  have h1 := hG.first _ hx
  rw [List.append_assoc]
  exact hu.dangLen h1.1 h1.2.1

theorem item_node {g : Green} {n : Node} (h : nodeOf g = some n) : ∃ k cs, g = .node k cs := by
  cases g with
  | token k t => rw [nodeOf] at h; cases h
  | node k cs => exact ⟨k, cs, rfl⟩

theorem commaAfter_item {g : Green} {n : Node} (h : nodeOf g = some n) (hk : isItemKind (kindOf g) = true) (F : List Green) :
    commaAfter (g :: F) = none := by
  obtain ⟨k, cs, rfl⟩ := item_node h
  rw [commaAfter, if_pos (by exact hk)]

theorem groupOf_item {g : Green} {n : Node} (h : nodeOf g = some n) (first : Option Nat) (F : List Green) (b : Body) :
    groupOf first (g :: F) b = .item first n (commaAfter F) (groupOf none F b) := by
  rw [groupOf, h]

/-- An item that starts a group. -/
theorem loop_item {G : Gram} (hG : G.Ok) {d br k : Nat} {w v v' : View} {n : Node} {c : Option Comma} {b : Body}
    (hi : ItemRd G d w n) (ha : AfterRd G d v c b k v') :
    LoopRd G d (w ++ v) br (.item (some (blankOf br)) n c b) k v' := by
  obtain ⟨hc, F, v1, F2, h1, h2, h3, h4, h5, h6, h7⟩ := ha
  obtain ⟨g, hr, hk, hn⟩ := hi.run [] v (fun x hx => by cases hx) hc
  rw [List.nil_append] at hr
  have hpk := hi.peek hG (p := []) (fun x hx => by cases hx) v
  rw [List.nil_append] at hpk
  have hne := hi.hd_ne hG v
  refine ⟨.node G.grp (g :: F) :: F2, ?_, ?_, ?_, ?_, ?_⟩
  · exact loop_group hG hne.1 (hi.dangLen hG v) (hG.first _ hpk).2.2.2
      (gloop_item hG (notSep hne.1 hne.2) hr h1) h2 h3
  · intro x hx
    rcases List.mem_cons.mp hx with rfl | hx
    · exact .inr (.inr ⟨_, rfl⟩)
    · exact h5 x hx
  · intro s tail ht
    have hf : ∀ {α} (x y : α), (if (!true) = true then x else y) = y := fun _ _ => rfl
    rw [List.cons_append, bodyOf, hf]
    simp only [if_neg hG.grp, if_true]
    rw [groupOf_item hn, h4, h6 s tail ht]
  · rw [List.foldl_cons, nextBreaks_node, h7]
  · exact ⟨fun h => absurd h hne.1, fun h => absurd h hne.2⟩

theorem loop_lb' {G : Gram} (hG : G.Ok) {d br k : Nat} {x : VTok} (hx : x.kind = LINE_BREAK) {v v' : View} {b : Body}
    (h : LoopRd G d v (br + 1) b k v') : LoopRd G d (x :: v) br b k v' := by
  obtain ⟨F, h1, h2, h3, h4, -⟩ := h
  refine ⟨_, loop_lb hG hx h1, ?_, ?_, ?_, ?_⟩
  · intro y hy
    rcases List.mem_cons.mp hy with rfl | hy
    · exact .inl ⟨_, rfl⟩
    · exact h2 y hy
  · intro s tail ht
    have hf : ∀ {α} (x y : α), (if (!true) = true then x else y) = y := fun _ _ => rfl
    rw [List.cons_append, bodyOf, hf]
    exact h3 s tail ht
  · rw [List.foldl_cons]
    exact h4
  · refine ⟨fun _ => ⟨_, _, rfl⟩, fun h => ?_⟩
    have h : x.kind = EOF := h
    rw [hx] at h
    cases h

theorem loop_lbs {G : Gram} (hG : G.Ok) {d br k : Nat} {p : View} (hp : AllLb p) {v v' : View} {b : Body}
    (h : LoopRd G d v (br + p.length) b k v') : LoopRd G d (p ++ v) br b k v' := by
  induction p generalizing br with
  | nil => exact h
  | cons x p ih =>
    obtain ⟨hx, hp⟩ := hp.cons
    refine loop_lb' hG hx (ih hp ?_)
    rw [List.length_cons] at h
    rw [show br + 1 + p.length = br + (p.length + 1) by omega]
    exact h

theorem loop_end' {G : Gram} (hG : G.Ok) {d br : Nat} {v : View} (hb : hd v ≠ LINE_BREAK) (hd' : dangLen v = none)
    (he : G.end_.contains (hd (View.peek v)) = true) : LoopRd G d v br .nil br v :=
  ⟨[], loop_end hG hb hd' he, (fun g hg => by cases hg), fun s tail ht => ht s br, rfl, fun h => absurd h hb, fun _ => rfl⟩

/-- The tokens of a dangling comment group. -/
def DangW : List Text → View → Prop
  | [], _ => False
  | [c], w => ∃ x, w = [x] ∧ x.kind = COMMENT ∧ x.text = c
  | c :: cs, w => ∃ x y w', w = x :: y :: w' ∧ x.kind = COMMENT ∧ x.text = c ∧ y.kind = LINE_BREAK ∧ DangW cs w'

/-- What may follow a dangling comment group. -/
def DangEnd (v : View) : Prop := hd v = LINE_BREAK ∧ TS_DANGLING_COMMENT_GROUP_END.contains (hd v.tail) = true

theorem DangW.hd {cs : List Text} {w : View} (h : DangW cs w) (v : View) : hd (w ++ v) = COMMENT := by
  match cs, h with
  | [_], ⟨x, e, hx, _⟩ => subst e; exact hx
  | _ :: _ :: _, ⟨x, y, w', e, hx, _⟩ => subst e; exact hx

theorem DangW.len {cs : List Text} {w : View} (h : DangW cs w) {v : View} (hv : DangEnd v) :
    dangLen (w ++ v) = some w.length := by
  unfold View.dangLen
  rw [if_pos (h.hd v)]
  induction cs generalizing w with
  | nil => exact absurd h id
  | cons c cs ih =>
    cases cs with
    | nil =>
      obtain ⟨x, rfl, hx, -⟩ := h
      obtain ⟨h1, h2⟩ := hv
      cases v with
      | nil => cases h1
      | cons y v =>
        have h1 : y.kind = LINE_BREAK := h1
        rw [List.singleton_append, dangLoop, if_neg (by rw [h1]; decide), if_pos (by exact h2)]
        rfl
    | cons c' cs =>
      obtain ⟨x, y, w', rfl, hx, -, hy, h⟩ := h
      have hc := h.hd v
      rw [List.cons_append, List.cons_append, dangLoop, if_neg (by rw [hy]; decide), if_neg (by rw [hc]; decide),
        if_neg (by rw [hc]; simp), ih h]
      rfl

theorem DangW.comments {cs : List Text} {w : View} (h : DangW cs w) : danglingComments (w.map leaf) = cs := by
  unfold danglingComments
  induction cs generalizing w with
  | nil => exact absurd h id
  | cons c cs ih =>
    cases cs with
    | nil =>
      obtain ⟨x, rfl, hx, rfl⟩ := h
      simp [leaf, hx, commentText?]
    | cons c' cs =>
      obtain ⟨x, y, w', rfl, hx, rfl, hy, h⟩ := h
      rw [List.map_cons, List.map_cons, List.filterMap_cons, List.filterMap_cons, ih h]
      simp [leaf, hx, hy, commentText?]

/-- A dangling comment group is not followed by an item at once. -/
theorem DangW.peek {cs : List Text} {w : View} (h : DangW cs w) {v : View} (hv : DangEnd v) :
    View.hd (View.peek (w ++ v)) = COMMENT ∨ isEnd (View.hd (View.peek (w ++ v))) := by
  induction cs generalizing w with
  | nil => exact absurd h id
  | cons c cs ih =>
    cases cs with
    | nil =>
      obtain ⟨x, rfl, hx, -⟩ := h
      obtain ⟨h1, h2⟩ := hv
      cases v with
      | nil => cases h1
      | cons y v =>
        have h1 : y.kind = LINE_BREAK := h1
        have h2 : TS_DANGLING_COMMENT_GROUP_END.contains (View.hd v) = true := h2
        rw [List.singleton_append, View.peek, if_neg (by rw [hx]; decide)]
        split
        · rename_i hh
          right
          have : View.hd v ≠ LINE_BREAK := hh.2.2
          rcases (by rcases groupEnd_iff h2 with h | h | h | h; exact .inl (.inl h); exact .inl (.inr (.inl h)); exact .inr h; exact .inl (.inr (.inr h)) : isEnd (View.hd v) ∨ View.hd v = LINE_BREAK) with h | h
          · have e : View.peek v = v := peek_self this (by rcases h with h | h | h <;> rw [h] <;> decide)
            rw [e]
            exact h
          · exact absurd h this
        · exact .inl hx
    | cons c' cs =>
      obtain ⟨x, y, w', rfl, hx, -, hy, h⟩ := h
      have hc := h.hd v
      rw [List.cons_append, List.cons_append, View.peek, if_neg (by rw [hx]; decide),
        if_pos ⟨hx, hy, by rw [hc]; decide⟩]
      exact ih h

theorem loop_dang' {G : Gram} (hG : G.Ok) {d br k : Nat} {cs : List Text} {w v v' : View} {b : Body} (hw : DangW cs w)
    (hv : DangEnd v) (h : LoopRd G d v 0 b k v') : LoopRd G d (w ++ v) br (.dangling (blankOf br) cs b) k v' := by
  obtain ⟨F, h1, h2, h3, h4, -⟩ := h
  have hl := hw.len hv
  have h0 : 0 < w.length := by
    match cs, hw with
    | [_], ⟨x, e, hx, _⟩ => subst e; simp
    | _ :: _ :: _, ⟨x, y, w', e, hx, _⟩ => subst e; simp
  have hr := loop_dang hG (d := d) hl h0 (v' := v') (F := F) (by rw [List.drop_left]; exact h1)
  rw [List.take_left] at hr
  refine ⟨_, hr, ?_, ?_, ?_, ?_⟩
  · intro y hy
    rcases List.mem_cons.mp hy with rfl | hy
    · exact .inr (.inl ⟨_, rfl⟩)
    · exact h2 y hy
  · intro s tail ht
    have hf : ∀ {α} (x y : α), (if (!true) = true then x else y) = y := fun _ _ => rfl
    rw [List.cons_append, bodyOf, hf]
    simp only [if_true]
    rw [hw.comments, h3 s tail ht]
  · rw [List.foldl_cons, nextBreaks_node, h4]
  · have := hw.hd v
    exact ⟨(fun h => by rw [this] at h; cases h), (fun h => by rw [this] at h; cases h)⟩

/-- The group ends here. -/
theorem rest_stop {G : Gram} (hG : G.Ok) {d k : Nat} {v v' : View} {b : Body} (hc : hd v ≠ COMMENT)
    (hk : hd (View.peek v) ≠ COMMA) (hl : G.line = true → TS_LINE_END.contains (hd v) = true)
    (hs : G.first.contains (hd (View.peek v)) = false ∨ isSep v = true) (h : LoopRd G d v 0 b k v') : RestRd G d v b k v' := by
  obtain ⟨F, h1, h2, h3, h4, -⟩ := h
  refine ⟨hc, hk, hl, [], v, F, ?_, hl, h1, rfl, h2, ?_, h4⟩
  · cases hf : G.first.contains (hd (View.peek v)) with
    | true =>
      rcases hs with h | h
      · rw [hf] at h; cases h
      · exact .inl ⟨hf, gloop_sep hG h⟩
    | false => exact .inr ⟨hf, rfl, rfl⟩
  · intro s tail ht
    rw [groupOf, h3 s tail ht]

/-- The group goes on. -/
theorem rest_item {G : Gram} (hG : G.Ok) {d k : Nat} {p w v v' : View} {n : Node} {c : Option Comma} {b : Body}
    (hp : AllLb p) (hi : ItemRd G d w n) (hs : isSep (p ++ w ++ v) = false) (hc : hd (p ++ w ++ v) ≠ COMMENT)
    (hl : G.line = true → TS_LINE_END.contains (hd (p ++ w ++ v)) = true)
    (ha : AfterRd G d v c b k v') : RestRd G d (p ++ w ++ v) (.item none n c b) k v' := by
  obtain ⟨hcv, F, v1, F2, h1, h2, h3, h4, h5, h6, h7⟩ := ha
  obtain ⟨g, hr, hk, hn⟩ := hi.run p v hp hcv
  have hpk := hi.peek hG hp v
  refine ⟨hc, (hG.first _ hpk).2.2.1, hl, g :: F, v1, F2, .inl ⟨hpk, gloop_item hG hs hr h1⟩, h2, h3,
    commaAfter_item hn hk F, h5, ?_, h7⟩
  intro s tail ht
  rw [groupOf_item hn, h4, h6 s tail ht]

theorem afterRd_none {G : Gram} (hG : G.Ok) {d k : Nat} {v v' : View} {b : Body} (h : RestRd G d v b k v') :
    AfterRd G d v none b k v' := by
  obtain ⟨hc, hk, hl, F, v1, F2, h1, h2, h3, h4, h5, h6, h7⟩ := h
  exact ⟨hc, F, v1, F2, after_none hG hk hl h1, h2, h3, h4, h5, h6, h7⟩

theorem nodeOf_comma (cs : List Green) : nodeOf (.node COMMA cs) = none := by
  rw [nodeOf]
  · rfl
  all_goals decide

theorem afterRd_comma {G : Gram} (hG : G.Ok) {d k : Nat} {p u wt v v' : View} {x : VTok} {b : Body} {c : Comma}
    (hp : AllLb p) (hu : LeadW c.leading u) (hx : x.kind = COMMA) (ht : TrailW c.trailing wt)
    (hc : hd (p ++ (u ++ x :: (wt ++ v))) ≠ COMMENT)
    (h : RestRd G d v b k v') : AfterRd G d (p ++ (u ++ x :: (wt ++ v))) (some c) b k v' := by
  obtain ⟨hcv, hk, hl, F, v1, F2, h1, h2, h3, h4, h5, h6, h7⟩ := h
  have hlead : Lead (p ++ u) := hp.lead hu.lead
  have hpk : View.peek (p ++ (u ++ x :: (wt ++ v))) = x :: (wt ++ v) := by
    rw [hp.peek, hu.peek]
    show isLead x.kind = false
    rw [hx]; decide
  have hcm : commaV (p ++ (u ++ x :: (wt ++ v))) =
      some ([.node COMMA ((p ++ u).map leaf ++ ([.token COMMA x.text] ++ trailLeaf c.trailing))], v) := by
    refine nodeV_eq ?_
    rw [← List.append_assoc]
    exact seqV_eq (leadV_eq hlead (by show isLead x.kind = false; rw [hx]; decide)) (seqV_eq (tokV_eq hx _) (trailV_eq ht hcv))
  refine ⟨hc, _, v1, F2, after_comma hG (by rw [hpk]; exact hx) hcm hl h1, h2, h3, ?_, h5, ?_, h7⟩
  · rw [List.singleton_append, commaAfter, if_neg (by decide), if_pos rfl, List.singleton_append,
      hlead.leadingOf (by rfl), trailingOf_trail _ (by decide), hp.cmts, hu.cmts]
  · intro s tail ht
    rw [List.singleton_append, groupOf, nodeOf_comma]
    exact h6 s tail ht

end Tombi.Formatter
