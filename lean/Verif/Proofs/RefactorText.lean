import Verif.Proofs.RefactorTree
import Verif.Proofs.Locate
/-! The texts of the refactorings. -/
namespace Tombi.Refactor
open Tombi.Outline
open Tombi.TomlFile (Val Pair Sec File Words KeyText Ws Gap Lines FileText keyText itemsText pairsText)
open Tombi.Format (AstKey)

variable {σ : Type} {L : Words} {off : Position → Nat}

/-! ### places -/

theorem around_pairs {p : Pair} {ss : List Sec} {t : Text} {ps : List Pair} (h : Lines L ps ss t) : ∀ {ps1 ps2}, ps = ps1 ++ p :: ps2 →
    ∃ before x after, t = before ++ (x ++ after) ∧ p.Text L x ∧ ∀ p' x', p'.Text L x' → Lines L (ps1 ++ p' :: ps2) ss (before ++ (x' ++ after)) := by
  induction h with
  | end_ h1 h2 => intro ps1 ps2 he; simp at he
  | blank hw hc hn _ ih =>
    intro ps1 ps2 he
    obtain ⟨b, x, a, rfl, hx, hr⟩ := ih he
    rename_i w c n _ _ _
    refine ⟨w ++ (c ++ (n ++ b)), x, a, by simp only [List.append_assoc], hx, fun p' x' h' => ?_⟩
    have := Lines.blank hw hc hn (hr p' x' h')
    simpa only [List.append_assoc] using this
  | pairEnd hw hx hw' hc =>
    intro ps1 ps2 he
    rename_i w q x w' c
    cases ps1 with
    | nil =>
      simp only [List.nil_append, List.cons.injEq] at he
      obtain ⟨rfl, rfl⟩ := he
      exact ⟨w, x, w' ++ c, rfl, hx, fun p' x' h' => .pairEnd hw h' hw' hc⟩
    | cons a ps1 => simp at he
  | pair hw hx hw' hc hn hl ih =>
    intro ps1 ps2 he
    rename_i w q x w' c n _ _ _
    cases ps1 with
    | nil =>
      simp only [List.nil_append, List.cons.injEq] at he
      obtain ⟨rfl, rfl⟩ := he
      exact ⟨w, x, _, rfl, hx, fun p' x' h' => .pair hw h' hw' hc hn hl⟩
    | cons a ps1 =>
      simp only [List.cons_append, List.cons.injEq] at he
      obtain ⟨rfl, he⟩ := he
      obtain ⟨b, y, a, rfl, hy, hr⟩ := ih he
      refine ⟨w ++ (x ++ (w' ++ (c ++ (n ++ b)))), y, a, by simp only [List.append_assoc], hy, fun p' x' h' => ?_⟩
      have := Lines.pair hw hx hw' hc hn (hr p' x' h')
      simpa only [List.append_assoc, List.cons_append] using this
  | headerEnd h1 h2 h3 h4 => intro ps1 ps2 he; simp at he
  | header h1 h2 h3 h4 h5 h6 ih => intro ps1 ps2 he; simp at he

/-! ### keys -/

theorem KeysAt.text {n : Text} {ks : List AstKey} {rks : List RKey} {x : Text} (h : KeysAt L off n ks rks x) : KeyText L ks x := by
  induction h with
  | last h1 _ => exact .last h1
  | dot h1 h2 h3 _ _ ih => exact .dot h1 h2 h3 ih

theorem KeysAt.length {n : Text} {ks : List AstKey} {rks : List RKey} {x : Text} (h : KeysAt L off n ks rks x) : ks.length = rks.length ∧ ks ≠ [] := by
  induction h with
  | last _ _ => simp
  | dot _ _ _ _ _ ih => simp [ih.1]

/-- The keys from some key on; other keys may stand there. -/
theorem KeysAt.split {rk : RKey} {rks' : List RKey} : {rks : List RKey} → {n : Text} → {ks : List AstKey} → {x : Text} →
    KeysAt L off n ks (rks ++ rk :: rks') x → ∃ ks1 k ks' pre t, ks = ks1 ++ k :: ks' ∧ ks1.length = rks.length ∧ x = pre ++ t ∧
      KeysAt L off (n ++ pre) (k :: ks') (rk :: rks') t ∧ ∀ ks'' t', KeyText L ks'' t' → KeyText L (ks1 ++ ks'') (pre ++ t')
  | [], n, ks, x, h => by
    cases ks with
    | nil => exact absurd rfl h.length.2
    | cons k ks => exact ⟨[], k, ks, [], x, rfl, rfl, rfl, by rwa [List.append_nil], fun ks'' t' h' => h'⟩
  | r :: rks, n, ks, x, h => by
    rw [List.cons_append] at h
    generalize hr : rks ++ rk :: rks' = l at h
    cases h with
    | last h1 h2 => simp at hr
    | dot h1 h2 h3 h4 h5 =>
      subst hr
      rename_i k ks a b t
      obtain ⟨ks1, k', ks', pre, t', rfl, hl, rfl, hat, hrep⟩ := KeysAt.split h5
      refine ⟨k :: ks1, k', ks', keyText k ++ (a ++ '.' :: (b ++ pre)), t', rfl, by simp [hl], by simp, ?_, fun ks'' t'' h' => ?_⟩
      · simpa only [List.append_assoc, List.cons_append] using hat
      · have := KeyText.dot h1 h2 h3 (hrep ks'' t'' h')
        simpa only [List.append_assoc, List.cons_append] using this

theorem KeysAt.within {n : Text} {ks : List AstKey} {rks : List RKey} {x : Text} (h : KeysAt L off n ks rks x) :
    ∀ rk ∈ rks, n.length ≤ off rk.range.start ∧ off rk.range.start ≤ off rk.range.stop ∧ off rk.range.stop ≤ n.length + x.length := by
  induction h with
  | last _ ha =>
    intro rk hrk
    rw [List.mem_singleton] at hrk
    subst hrk
    obtain ⟨h1, h2⟩ := ha
    omega
  | dot _ _ _ ha _ ih =>
    intro rk hrk
    rcases List.mem_cons.1 hrk with rfl | hrk
    · obtain ⟨h1, h2⟩ := ha
      simp only [List.length_append]
      omega
    · have := ih rk hrk
      simp only [List.length_append, List.length_cons] at this ⊢
      omega

/-- The range of the last key ends with the keys. -/
theorem KeysAt.last_stop {n : Text} {ks : List AstKey} {rks : List RKey} {rk : RKey} {x : Text} (h : KeysAt L off n ks (rks ++ [rk]) x) :
    off rk.range.stop = n.length + x.length := by
  obtain ⟨ks1, k, ks', pre, t, rfl, -, rfl, hat, -⟩ := h.split
  generalize hn : n ++ pre = m at hat
  cases hat with
  | last _ ha => rw [ha.2, ← hn]; simp; omega
  | dot _ _ _ _ h' => exact absurd (by simpa using h'.length.1) h'.length.2

/-- Keys, a dot and more keys. -/
theorem keys_dot {ks' : List AstKey} {t' : Text} (h' : KeyText L ks' t') : {ks : List AstKey} → {t : Text} → KeyText L ks t →
    (∀ k, ks.getLast? = some k → L.keyBeforeDot k) → KeyText L (ks ++ ks') (t ++ '.' :: t')
  | _, _, .last _, hd => by
    have := KeyText.dot (a := []) (b := []) (hd _ rfl) (fun c h => by cases h) (fun c h => by cases h) h'
    simpa using this
  | _, _, .dot (ks := ks) h1 h2 h3 h4, hd => by
    have hne : ks ≠ [] := by cases h4 <;> simp
    have := KeyText.dot h1 h2 h3 (keys_dot h' h4 fun k hk => hd k (by rw [List.getLast?_cons, hk]; rfl))
    simpa only [List.append_assoc, List.cons_append] using this

theorem PairAt.text {n : Text} {p : Pair} {rkv : RAstKeyValue σ} {x : Text} (h : PairAt L off n p rkv x) : p.Text L x := by
  cases h with
  | mk hk ha hb hv _ _ =>
    rw [Pair.Text]
    exact ⟨_, _, _, _, hk.text, ha, hb, hv, rfl⟩

theorem InlineAt.text {n : Text} {p : Pair} {rkv : RAstKeyValue σ} {x : Text} (h : InlineAt L off n p rkv x) : p.Text L x := by
  cases h with
  | mk hk ha hb hg hp he _ =>
    rename_i q rkv range k a b g t e r _
    rw [Pair.Text]
    refine ⟨_, _, _, _, hk.text, ha, hb, ?_, rfl⟩
    rw [Val.Text]
    refine ⟨g ++ (t ++ e), ?_, by simp⟩
    rw [pairsText]
    rcases he with he | ⟨g1, g2, h1, h2, rfl⟩
    · exact ⟨g, t, e, hg, hp.text, .inl ⟨rfl, he, rfl⟩⟩
    · exact ⟨g, t, g1, hg, hp.text, .inr ⟨g2, h1, by rw [pairsText]; exact h2, rfl⟩⟩

/-! ### edits -/

theorem two_edits {A B C B' D new new' : Text} {r r' : Range} (h1 : off r.start = A.length) (h2 : off r.stop = A.length + B.length)
    (h3 : off r'.start = A.length + B.length + C.length) (h4 : off r'.stop = A.length + B.length + C.length + B'.length) :
    applyEdits off (A ++ (B ++ (C ++ (B' ++ D)))) [⟨r, new⟩, ⟨r', new'⟩] = A ++ (new ++ (C ++ (new' ++ D))) := by
  have e1 : applyEdit off (A ++ (B ++ (C ++ (B' ++ D)))) ⟨r', new'⟩ = A ++ (B ++ (C ++ (new' ++ D))) := by
    rw [applyEdit]
    simp only [h3, h4]
    rw [show A ++ (B ++ (C ++ (B' ++ D))) = (A ++ (B ++ C)) ++ (B' ++ D) by simp only [List.append_assoc]]
    rw [List.take_left' (by simp; omega)]
    rw [show (A ++ (B ++ C)) ++ (B' ++ D) = (A ++ (B ++ (C ++ B'))) ++ D by simp only [List.append_assoc]]
    rw [List.drop_left' (by simp; omega)]
    simp only [List.append_assoc]
  rw [applyEdits, List.foldr_cons, List.foldr_cons, List.foldr_nil, e1, applyEdit]
  simp only [h1, h2]
  rw [List.take_left' rfl]
  rw [show A ++ (B ++ (C ++ (new' ++ D))) = (A ++ B) ++ (C ++ (new' ++ D)) by simp only [List.append_assoc]]
  rw [List.drop_left' (by simp)]

/-! ### ranges -/

theorem le_of_lt (hm : Monotone off) {a b : Position} (h : off a < off b) : a.le b = true := by
  by_cases hl : a.le b = true
  · exact hl
  · have := hm _ _ (Locate.le_total' hl)
    omega

theorem rkv_range {range : Range} {v : RValue σ} (hm : Monotone off) : (m : RKey) → (ms : List RKey) →
    (∀ rk ∈ m :: ms, off rk.range.start < off v.range.start ∧ off rk.range.stop < off v.range.start) → off v.range.start ≤ off v.range.stop →
    (rkeyValueTable range (m :: ms) v).1.range = ⟨m.range.start, v.range.stop⟩
  | m, [], h, hv => by
    have h0 := h m List.mem_cons_self
    rw [rkv_one]
    simp only
    rw [Range.add, Position.min, Position.maxOf, if_pos (le_of_lt hm h0.1), if_pos (le_of_lt hm (by omega)), Range.new,
      if_pos (le_of_lt hm (by omega))]
  | m, m' :: ms, h, hv => by
    have h0 := h m List.mem_cons_self
    rw [rkv_cons]
    simp only
    rw [rkv_range hm m' ms (fun rk hrk => h rk (List.mem_cons_of_mem _ hrk)) hv, Range.new, if_pos (le_of_lt hm (by simp only; omega))]

theorem KeysAt.first_start {n : Text} {ks : List AstKey} {rk : RKey} {rks : List RKey} {x : Text} (h : KeysAt L off n ks (rk :: rks) x) :
    off rk.range.start = n.length := by
  cases h with
  | last _ ha => exact ha.1
  | dot _ _ _ ha _ => exact ha.1

theorem space_ws : Ws [' '] := fun c h => .inl (List.mem_singleton.1 h)

/-- The text of a key-value whose value is an inline table with one key-value. -/
theorem inline_text {ks : List AstKey} {k x : Text} {p : Pair} (hk : KeyText L ks k) (hp : p.Text L x) :
    (Pair.mk ks (.table [p])).Text L (k ++ (" = { ".toList ++ (x ++ " }".toList))) := by
  rw [Pair.Text]
  refine ⟨k, [' '], [' '], '{' :: ([' '] ++ (x ++ [' ']) ++ ['}']), hk, space_ws, space_ws, ?_, by simp⟩
  rw [Val.Text]
  refine ⟨[' '] ++ (x ++ [' ']), ?_, rfl⟩
  rw [pairsText]
  exact ⟨[' '], x, [' '], .ws space_ws .nil, hp, .inl ⟨rfl, .ws space_ws .nil, rfl⟩⟩

/-- The edits of the refactoring to an inline table. -/
theorem inline_edit {before x after : Text} {ks : List AstKey} {val : Val} {r : Range} {rks more : List RKey} {k k' : RKey} {rv : RAstValue σ}
    {K : AstKey} (hoff : Monotone off) (hat : PairAt L off before (.mk ks val) (.mk r (some (rks ++ k :: k' :: more)) (some rv)) x)
    (hK : L.key K) (hk' : L.key (.bare k'.text)) (hdot : more ≠ [] → L.keyBeforeDot (.bare k'.text)) :
    ∃ ks1 a b ms, ks = ks1 ++ a :: b :: ms ∧ ks1.length = rks.length ∧ ∃ kind rng w x',
      (rkeyValueTable r (k' :: more) rv.tree.1).1.value = .table kind rng [(k', w)] ∧ kind ≠ .inlineTable ∧
      applyEdits off (before ++ (x ++ after)) [⟨⟨k.range.start, w.range.start⟩,
          keyText K ++ " = { ".toList ++ k'.text ++ (if kind = .keyValue then " = ".toList else ['.'])⟩,
        ⟨⟨w.range.stop, w.range.stop⟩, " }".toList⟩] = before ++ (x' ++ after) ∧
      (Pair.mk (ks1 ++ [K]) (.table [.mk (.bare k'.text :: ms) val])).Text L x' := by
  cases hat with
  | @mk _ _ _ _ _ kt a b tv vr hk ha hb hv hrange hvat =>
    subst hrange
    obtain ⟨ks1, c, ks', pre, t, rfl, hl, rfl, hsplit, hrep⟩ := hk.split
    have hhead : KeyText L (ks1 ++ [K]) (pre ++ keyText K) := hrep _ _ (.last hK)
    generalize hn : before ++ pre = n at hsplit
    cases hsplit with
    | @dot _ _ _ ks2 _ a1 b1 t2 h1 h2 h3 h4 h5 =>
      obtain ⟨hvs, hve⟩ := hvat
      have hnl : n.length = before.length + pre.length := by rw [← hn]; simp
      cases h5 with
      | @last _ c' _ h6 h7 =>
        refine ⟨ks1, c, c', [], rfl, hl, .keyValue, k'.range.add rv.tree.1.range, rv.tree.1,
          (pre ++ keyText K) ++ (" = { ".toList ++ ((k'.text ++ ([' '] ++ '=' :: ([' '] ++ tv))) ++ " }".toList)), ?_, by simp, ?_, ?_⟩
        · rw [rkv_one]; rfl
        · have := two_edits (off := off) (A := before ++ pre) (B := keyText c ++ (a1 ++ '.' :: (b1 ++ keyText c')) ++ (a ++ '=' :: b)) (C := tv) (B' := [])
            (D := after) (r := ⟨k.range.start, rv.tree.1.range.start⟩) (r' := ⟨rv.tree.1.range.stop, rv.tree.1.range.stop⟩)
            (new := keyText K ++ " = { ".toList ++ k'.text ++ " = ".toList) (new' := " }".toList)
            (by simp only [h4.1]; simp [hnl]) (by simp only [hvs]; simp; omega) (by simp only [hve]; simp; omega) (by simp only [hve]; simp; omega)
          rw [if_pos rfl]
          refine Eq.trans (congrArg (fun t => applyEdits off t _) ?_) (this.trans ?_)
          · simp only [List.append_assoc, List.cons_append, List.nil_append]
          · rw [show " = ".toList = [' ', '=', ' '] from rfl]
            simp only [List.append_assoc, List.cons_append, List.nil_append]
        · refine inline_text hhead ?_
          rw [Pair.Text]
          exact ⟨k'.text, [' '], [' '], tv, .last (k := .bare k'.text) hk', space_ws, space_ws, hv, rfl⟩
      | @dot _ c' _ ks3 rks3 a2 b2 t3 h6 h7 h8 h9 h10 =>
        have hlen := h10.length
        cases more with
        | nil => exact absurd (by simpa using hlen.1) hlen.2
        | cons m more =>
          have hw := h10.within
          have hfs := h10.first_start
          simp only [List.length_append, List.length_cons] at hvs hve hw hfs
          have hrange := rkv_range (range := r) (v := rv.tree.1) hoff m more (fun rk hrk => by have := hw rk hrk; omega) (by omega)
          refine ⟨ks1, c, c', ks3, rfl, hl, .parentKey,
            Range.new k'.range.start (rkeyValueTable r (m :: more) rv.tree.1).1.range.stop, (rkeyValueTable r (m :: more) rv.tree.1).1.value,
            (pre ++ keyText K) ++ (" = { ".toList ++ (((k'.text ++ ([] ++ '.' :: ([] ++ t3))) ++ (a ++ '=' :: (b ++ tv))) ++ " }".toList)), ?_, by simp, ?_, ?_⟩
          · rw [rkv_cons]; rfl
          · have hr : (rkeyValueTable r (m :: more) rv.tree.1).1.value.range = ⟨m.range.start, rv.tree.1.range.stop⟩ := by
              rw [← hrange]; rfl
            rw [hr, if_neg (by decide)]
            have := two_edits (off := off) (A := before ++ pre) (B := keyText c ++ (a1 ++ '.' :: (b1 ++ (keyText c' ++ (a2 ++ '.' :: b2)))))
              (C := t3 ++ (a ++ '=' :: (b ++ tv))) (B' := []) (D := after) (r := ⟨k.range.start, m.range.start⟩)
              (r' := ⟨rv.tree.1.range.stop, rv.tree.1.range.stop⟩)
              (new := keyText K ++ " = { ".toList ++ k'.text ++ ['.']) (new' := " }".toList)
              (by simp only [h4.1]; simp [hnl]) (by simp only [hfs]; simp; omega) (by simp only [hve]; simp; omega) (by simp only [hve]; simp; omega)
            refine Eq.trans (congrArg (fun t => applyEdits off t _) ?_) (this.trans ?_)
            · simp only [List.append_assoc, List.cons_append, List.nil_append]
            · simp only [List.append_assoc, List.cons_append, List.nil_append]
          · refine inline_text hhead ?_
            rw [Pair.Text]
            exact ⟨_, a, b, tv, .dot (k := .bare k'.text) (hdot (by simp)) (fun c h => by cases h) (fun c h => by cases h) h10.text, ha, hb, hv, rfl⟩

theorem range_add {a b : Range} (hoff : Monotone off) (h1 : off a.start < off b.start) (h2 : off b.stop < off a.stop) (h3 : off a.start < off a.stop) :
    a.add b = a := by
  have hn : ¬ a.stop.le b.stop = true := fun h => by have := hoff _ _ h; omega
  rw [Range.add, Position.min, Position.maxOf, if_pos (le_of_lt hoff h1), if_neg hn, Range.new, if_pos (le_of_lt hoff h3)]

/-- The tree of an inline table with one key-value. -/
theorem inline_tree {r2 r3 : Range} {m : RKey} {more : List RKey} {rv : RAstValue σ} :
    ∃ w, (RAstValue.inlineTable r2 [.mk r3 (some (m :: more)) (some rv)]).tree.1 =
        .table .inlineTable (r2.add (rkeyValueTable r3 (m :: more) rv.tree.1).1.range) [(m, w)] ∧
      (more = [] ∧ w = rv.tree.1 ∨ more ≠ [] ∧ w = (rkeyValueTable r3 more rv.tree.1).1.value) := by
  obtain ⟨w, he, hw⟩ := rkv_entries (range := r3) (k := m) (ks := more) (v := rv.tree.1)
  refine ⟨w, ?_, hw⟩
  have hk : (rkeyValueTable r3 (m :: more) rv.tree.1).1.kind = .keyValue ∨ (rkeyValueTable r3 (m :: more) rv.tree.1).1.kind = .parentKey := by
    cases more with
    | nil => rw [rkv_one]; exact .inl rfl
    | cons m' more => rw [rkv_cons]; exact .inr rfl
  rw [RAstValue.tree, rmergeKeyValues, rmergeKeyValues, RAstKeyValue.tree, RTable.merge]
  simp only
  rw [if_neg]
  · simp only [he]
    rfl
  · rcases hk with hk | hk <;> rw [hk] <;> simp [tableConflict]

/-- The edits of the refactoring to dotted keys. -/
theorem dotted_edit {before x after : Text} {ks ks' : List AstKey} {val : Val} {r r2 r3 : Range} {rks more : List RKey} {k k' : RKey} {rv : RAstValue σ}
    (hoff : Monotone off) (hat : InlineAt L off before (.mk ks (.table [.mk ks' val]))
      (.mk r (some (rks ++ [k])) (some (.inlineTable r2 [.mk r3 (some (k' :: more)) (some rv)]))) x)
    (hdot : ∀ c, ks.getLast? = some c → L.keyBeforeDot c) :
    ∃ w x', (RAstValue.inlineTable r2 [.mk r3 (some (k' :: more)) (some rv)]).tree.1 = .table .inlineTable r2 [(k', w)] ∧
      applyEdits off (before ++ (x ++ after)) [⟨Range.new k.range.stop k'.range.start, ['.']⟩, ⟨Range.new w.range.stop r2.stop, []⟩] =
        before ++ (x' ++ after) ∧ (Pair.mk (ks ++ ks') val).Text L x' := by
  cases hat with
  | @mk _ _ _ _ _ kt a b g t e _ hk ha hb hg hp he hat =>
    cases hp with
    | @mk _ _ _ _ _ kt' a' b' tv vr hk' ha' hb' hv hrange hvat =>
      subst hrange
      have hstop := hk.last_stop
      have hfirst := hk'.first_start
      have hw' := hk'.within
      obtain ⟨hs1, hs2⟩ := hat
      obtain ⟨hvs, hve⟩ := hvat
      simp only [List.length_append, List.length_cons, List.length_nil] at hstop hfirst hw' hs1 hs2 hvs hve
      have hrange := rkv_range (range := r3) (v := rv.tree.1) hoff k' more (fun rk hrk => by have := hw' rk hrk; omega) (by omega)
      obtain ⟨w, htree, hw⟩ := inline_tree (r2 := r2) (r3 := r3) (m := k') (more := more) (rv := rv)
      rw [hrange, range_add hoff (by simp only; omega) (by simp only; omega) (by omega)] at htree
      have hwstop : w.range.stop = rv.tree.1.range.stop := by
        rcases hw with ⟨-, rfl⟩ | ⟨hne, rfl⟩
        · rfl
        · cases more with
          | nil => exact absurd rfl hne
          | cons m more =>
            have := rkv_range (range := r3) (v := rv.tree.1) hoff m more
              (fun rk hrk => by have := hw' rk (List.mem_cons_of_mem _ hrk); omega) (by omega)
            rw [RTable.value, RValue.range, this]
      refine ⟨w, (kt ++ '.' :: kt') ++ (a' ++ '=' :: (b' ++ tv)), htree, ?_, ?_⟩
      · rw [hwstop, Range.new, if_pos (le_of_lt hoff (by omega)), Range.new, if_pos (le_of_lt hoff (by omega))]
        have := two_edits (off := off) (A := before ++ kt) (B := a ++ '=' :: (b ++ '{' :: g)) (C := kt' ++ (a' ++ '=' :: (b' ++ tv)))
          (B' := e ++ ['}']) (D := after) (r := ⟨k.range.stop, k'.range.start⟩) (r' := ⟨rv.tree.1.range.stop, r2.stop⟩) (new := ['.']) (new' := [])
          (by simp only [hstop]; simp) (by simp only [hfirst]; simp; omega) (by simp only [hve]; simp; omega) (by simp only [hs2]; simp; omega)
        refine Eq.trans (congrArg (fun t => applyEdits off t _) ?_) (this.trans ?_)
        · simp only [List.append_assoc, List.cons_append, List.nil_append]
        · simp only [List.append_assoc, List.cons_append, List.nil_append]
      · rw [Pair.Text]
        exact ⟨_, a', b', tv, keys_dot hk'.text hk.text hdot, ha', hb', hv, rfl⟩

end Tombi.Refactor
