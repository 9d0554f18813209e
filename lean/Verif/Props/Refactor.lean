import Verif.Proofs.RefactorDoc
/-!
**C89.** The refactorings of the editor, dotted keys to an inline table and back, keep the data: the text with the edits is read without
errors, and everywhere in the document there is what was there before.
-/
namespace Tombi.Refactor
open Tombi.Outline Spec
open Tombi.TomlFile (Val Pair Sec File Words KeyText Ws Gap Lines FileText keyText itemsText pairsText pairsNested ws0 ws1)
open Tombi.Format (AstKey)
open Tombi.Formatter (PlainKey DotKey)
open Tombi.Reading (Scalar KeyMeans keysMean pairsMean ValMeans FileMeans wordsReadable readDocument)

/-- Both texts are read without errors, and have the same tables, arrays and scalars at the same places. -/
def SameData (G : Segmenter) (v : TomlVersion) (t t' : Text) : Prop :=
  ∃ T T', readDocument G v t = .ok T ∧ readDocument G v t' = .ok T' ∧ ∀ p, nodeAt T.value p = nodeAt T'.value p

theorem same_nodes {a b : Option (Spec.Node Scalar)} (h : ∀ n, a = some n ↔ b = some n) : a = b := by
  cases a with
  | none =>
    cases b with
    | none => rfl
    | some y => exact (((h y).2 rfl).symm ▸ rfl)
  | some x => exact ((h x).1 rfl).symm

/-- Every key-value at the top of a text has a place, in which another one may stand. -/
theorem C89_place {L : Words} {ps1 ps2 : List Pair} {p : Pair} {ss : List Sec} {t : Text} (h : FileText L ⟨ps1 ++ p :: ps2, ss⟩ t) :
    ∃ before x after, t = before ++ (x ++ after) ∧ p.Text L x ∧ Around L before after fun p' => ⟨ps1 ++ p' :: ps2, ss⟩ :=
  around_pairs h rfl

theorem pairsMean_one {v : TomlVersion} {ks : List AstKey} {x : Val} {ns : List DKey} {y : AstValue Scalar} {ps : List Pair}
    {kvs : List (AstKeyValue Scalar)} : pairsMean v (.mk ks x :: ps) (.mk (some ns) (some y) :: kvs) ↔
      keysMean v ks ns ∧ ValMeans v x y ∧ pairsMean v ps kvs := by rw [pairsMean]

/-- **C89, dotted keys to an inline table.** The cursor is on a key after a dot of a key-value `ks.k.k'.more = value` at the top of a valid
document. If no other key-value and no header begins with `ks.k`, and the names are such that they are printed right, the edits that are
offered make a text with the same data: `ks.k = { k'.more = value }`. -/
theorem C89_to_inline_partial (G : Segmenter) {v : TomlVersion} {off : Position → Nat} {before x after : Text} {ps1 ps2 : List Pair} {ss : List Sec}
    {ks : List AstKey} {val : Val} {root : RAstRoot Scalar} {kvs1 kvs2 : List (RAstKeyValue Scalar)} {r : Range} {rks more : List RKey} {k k' : RKey}
    {rv : RAstValue Scalar}
    (hoff : Monotone off)
    (hplace : Around wordsReadable before after fun p => ⟨ps1 ++ p :: ps2, ss⟩)
    (hroot : root.kvs = kvs1 ++ .mk r (some (rks ++ k :: k' :: more)) (some rv) :: kvs2) (hsame : ps1.length = kvs1.length)
    (hat : PairAt wordsReadable off before (.mk ks val) (.mk r (some (rks ++ k :: k' :: more)) (some rv)) x)
    (hm : FileMeans v ⟨ps1 ++ .mk ks val :: ps2, ss⟩ root.erase)
    (hv : Valid root.erase) (hr : Spec.Regular root.erase) (hu : Uninterrupted root.erase)
    (halone : ∀ kv ∈ kvs1 ++ kvs2, ∀ r ks rv, kv = .mk r (some ks) (some rv) → ¬ (rks ++ [k]).map RKey.text <+: ks.map RKey.text)
    (hheaders : ∀ s ∈ root.sections, ∀ h, s.header = some h → ¬ (rks ++ [k]).map RKey.text <+: h.map RKey.text)
    (hk : ParentName k.text) (hk' : PlainKey k'.text) (hdot : more ≠ [] → DotKey k'.text)
    (hn : pairsNested (maxRecursionDepth - 1) [.mk ks val]) (hn' : File.Nested maxRecursionDepth ⟨ps1 ++ ps2, ss⟩)
    (hlen : utf8Len (before ++ (x ++ after)) < 2 ^ 28)
    (hlen' : ∀ es, dottedToInline root.tree.1 (cursor [] [rks ++ [k, k']]) = some es → utf8Len (applyEdits off (before ++ (x ++ after)) es) < 2 ^ 28) :
    ∃ es, dottedToInline root.tree.1 (cursor [] [rks ++ [k, k']]) = some es ∧
      SameData G v (before ++ (x ++ after)) (applyEdits off (before ++ (x ++ after)) es) := by
  have herase : root.erase = ⟨eraseKeyValues kvs1 ++ dotted ((rks ++ [k]).map RKey.text) ((k' :: more).map RKey.text) rv.erase :: eraseKeyValues kvs2,
      root.sections.map RAstSection.erase⟩ := by
    rw [RAstRoot.erase, hroot, erase_append, eraseKeyValues, RAstKeyValue.erase, dotted]
    simp
  have hmp := hm.1
  rw [herase] at hmp
  simp only at hmp
  rw [pairsMean_append (by rw [length_erase]; exact hsame), dotted, pairsMean_one] at hmp
  obtain ⟨hm1, hmk, hmv, hm2⟩ := hmp
  have hsome : ∀ kv ∈ kvs1 ++ kvs2, ∃ ks x, kv.erase = .mk (some ks) (some x) := by
    intro kv h
    rcases List.mem_append.1 h with h | h
    · exact pairsMean_some hm1 _ (mem_erase h)
    · exact pairsMean_some hm2 _ (mem_erase h)
  have he : root.tree.2 = [] := by
    have := C53_accepted_partial root.erase hv hr hu
    rwa [root_tree_erase] at this
  have hch := rkv_chain (range := r) (v := rv.tree.1) (rks ++ [k]) (k' :: more) (by simp)
  rw [List.append_assoc, List.singleton_append] at hch
  have hfound := found hv he hroot hsome (q := (rks ++ [k]).map RKey.text) (by simp) ⟨(k' :: more).map RKey.text, by simp⟩ hch.1 halone hheaders
  rw [hch.2] at hfound
  -- the two documents
  have hval : Valid (⟨eraseKeyValues kvs1 ++ inlined ((rks ++ [k]).map RKey.text) ((k' :: more).map RKey.text) rv.erase :: eraseKeyValues kvs2,
      root.sections.map RAstSection.erase⟩ : AstRoot Scalar) := by
    rw [herase] at hv
    refine valid_inlined (by simp) (by simp) hv ?_ ?_
    · rw [← erase_append]
      intro a ha
      obtain ⟨rr, ks', rv', hm, hks⟩ := mem_assigns_erase ha
      rw [hks]
      exact halone _ hm _ _ _ rfl
    · intro s hs h hh
      obtain ⟨s', hs', rfl⟩ := List.mem_map.1 hs
      rw [RAstSection.erase] at hh
      simp only [Option.map_eq_some_iff] at hh
      obtain ⟨h', hh', rfl⟩ := hh
      exact hheaders s' hs' h' hh'
  obtain ⟨K, hK1, hK2, hK3⟩ := parent_key hk v
  obtain ⟨ks1, a, b, ms, rfl, hl, kind, rng, w, x', htab, hkind, hedit, htext⟩ := inline_edit (after := after) hoff hat hK1
    (show wordsReadable.key (.bare k'.text) from hk') (fun h => show wordsReadable.keyBeforeDot (.bare k'.text) from hdot h)
  rw [htab] at hfound
  obtain ⟨rest, hrev⟩ := level_two rks k k'
  have hcur : cursor [] [rks ++ [k, k']] = level (rks ++ [k, k']) := by simp [cursor]
  have hdrop : (level (rks ++ [k, k'])).dropLast.map (·.1.text) = (rks ++ [k]).map RKey.text := by
    have : (level (rks ++ [k, k'])).dropLast.map (·.1.text) = ((level (rks ++ [k, k'])).map (·.1)).dropLast.map RKey.text := by
      rw [← List.map_dropLast, List.map_map]; rfl
    rw [this, level_keys, show rks ++ [k, k'] = (rks ++ [k]) ++ [k'] by simp, List.dropLast_concat]
  have hes : dottedToInline root.tree.1 (cursor [] [rks ++ [k, k']]) = some [⟨⟨k.range.start, w.range.start⟩,
          TomlFile.keyText K ++ " = { ".toList ++ k'.text ++ (if kind = .keyValue then " = ".toList else ['.'])⟩,
        ⟨⟨w.range.stop, w.range.stop⟩, " }".toList⟩] := by
    rw [hcur, dottedToInline, hrev]
    simp only
    rw [hdrop, hfound]
    simp only
    rw [if_pos (by simp [hkind]), hK3]
  refine ⟨_, hes, ?_⟩
  have hlen2 := hlen' _ hes
  rw [hedit] at hlen2 ⊢
  simp only [pairsNested, and_true] at hn
  obtain ⟨hn1, hn2⟩ := hn'
  simp only at hn1 hn2
  rw [pairsNested_append] at hn1
  obtain ⟨T, hT, hTn⟩ := Reading.C70_read_partial G (hplace _ _ hat.text) ⟨by
    simp only
    rw [pairsNested_append, pairsNested]
    exact ⟨hn1.1, nested_succ_pair hn, hn1.2⟩, hn2⟩ hlen hm hv hr hu
  rw [show (ks1 ++ a :: b :: ms) = (ks1 ++ ([a] ++ (b :: ms))) by simp, List.map_append,
    List.append_assoc, keysMean_append (by simpa using hl), List.map_singleton, List.singleton_append, List.singleton_append, keysMean] at hmk
  obtain ⟨hmk1, -, hmk2⟩ := hmk
  rw [List.map_cons, keysMean] at hmk2
  obtain ⟨T', hT', hTn'⟩ := Reading.C70_read_partial G (v := v) (root := ⟨eraseKeyValues kvs1 ++ inlined ((rks ++ [k]).map RKey.text)
      ((k' :: more).map RKey.text) rv.erase :: eraseKeyValues kvs2, root.sections.map RAstSection.erase⟩) (hplace _ _ htext) ⟨by
    simp only
    rw [pairsNested_append, pairsNested, Pair.Nested, show maxRecursionDepth = (maxRecursionDepth - 1) + 1 from rfl, Val.Nested, pairsNested,
      Pair.Nested, pairsNested]
    rw [Pair.Nested] at hn
    exact ⟨hn1.1, ⟨hn, trivial⟩, hn1.2⟩, hn2⟩ hlen2 ⟨by
      simp only
      rw [pairsMean_append (by rw [length_erase]; exact hsame), inlined, pairsMean_one, ValMeans, pairsMean_one]
      refine ⟨hm1, ?_, ⟨?_, hmv, by rw [pairsMean]; trivial⟩, hm2⟩
      · rw [List.map_append, keysMean_append (by simpa using hl)]
        exact ⟨hmk1, by rw [List.map_singleton, keysMean, keysMean]; exact ⟨hK2, trivial⟩⟩
      · rw [List.map_cons, keysMean]
        exact ⟨.bare, hmk2.2⟩, hm.2⟩ hval hr hu
  refine ⟨T, T', hT, hT', fun p => same_nodes fun n => ?_⟩
  rw [hTn, hTn', herase, same_docNodes (by simp) (by simp)]

/-- **C89, an inline table to dotted keys.** The cursor is on the key of the only key-value of an inline table without comments, in a
key-value `ks = { ks' = value }` at the top of a valid document. The edits that are offered make a text with the same data: `ks.ks' = value`. -/
theorem C89_to_dotted_partial (G : Segmenter) {v : TomlVersion} {off : Position → Nat} {hasComment : Range → Bool} {before x after : Text}
    {ps1 ps2 : List Pair} {ss : List Sec} {ks ks' : List AstKey} {val : Val} {root : RAstRoot Scalar} {kvs1 kvs2 : List (RAstKeyValue Scalar)}
    {r r2 r3 : Range} {rks more : List RKey} {k k' : RKey} {rv : RAstValue Scalar}
    (hoff : Monotone off)
    (hplace : Around wordsReadable before after fun p => ⟨ps1 ++ p :: ps2, ss⟩)
    (hroot : root.kvs = kvs1 ++ .mk r (some (rks ++ [k])) (some (.inlineTable r2 [.mk r3 (some (k' :: more)) (some rv)])) :: kvs2)
    (hsame : ps1.length = kvs1.length)
    (hat : InlineAt wordsReadable off before (.mk ks (.table [.mk ks' val]))
      (.mk r (some (rks ++ [k])) (some (.inlineTable r2 [.mk r3 (some (k' :: more)) (some rv)]))) x)
    (hm : FileMeans v ⟨ps1 ++ .mk ks (.table [.mk ks' val]) :: ps2, ss⟩ root.erase)
    (hv : Valid root.erase) (hr : Spec.Regular root.erase) (hu : Uninterrupted root.erase)
    (hcomment : hasComment r2 = false) (hdot : ∀ c, ks.getLast? = some c → wordsReadable.keyBeforeDot c)
    (hn : File.Nested maxRecursionDepth ⟨ps1 ++ .mk ks (.table [.mk ks' val]) :: ps2, ss⟩)
    (hlen : utf8Len (before ++ (x ++ after)) < 2 ^ 28)
    (hlen' : ∀ es, inlineToDotted hasComment root.tree.1 (cursor [] [rks ++ [k], [k']]) = some es →
      utf8Len (applyEdits off (before ++ (x ++ after)) es) < 2 ^ 28) :
    ∃ es, inlineToDotted hasComment root.tree.1 (cursor [] [rks ++ [k], [k']]) = some es ∧
      SameData G v (before ++ (x ++ after)) (applyEdits off (before ++ (x ++ after)) es) := by
  have herase : root.erase = ⟨eraseKeyValues kvs1 ++ inlined ((rks ++ [k]).map RKey.text) ((k' :: more).map RKey.text) rv.erase :: eraseKeyValues kvs2,
      root.sections.map RAstSection.erase⟩ := by
    rw [RAstRoot.erase, hroot, erase_append, eraseKeyValues, RAstKeyValue.erase, inlined, RAstValue.erase, eraseKeyValues, RAstKeyValue.erase,
      eraseKeyValues]
    rfl
  have hmp := hm.1
  rw [herase] at hmp
  simp only at hmp
  rw [pairsMean_append (by rw [length_erase]; exact hsame), inlined, pairsMean_one, ValMeans, pairsMean_one] at hmp
  obtain ⟨hm1, hmk, ⟨hmk', hmv, -⟩, hm2⟩ := hmp
  have hsome : ∀ kv ∈ kvs1 ++ kvs2, ∃ ks x, kv.erase = .mk (some ks) (some x) := by
    intro kv h
    rcases List.mem_append.1 h with h | h
    · exact pairsMean_some hm1 _ (mem_erase h)
    · exact pairsMean_some hm2 _ (mem_erase h)
  have he : root.tree.2 = [] := by
    have := C53_accepted_partial root.erase hv hr hu
    rwa [root_tree_erase] at this
  have hch := rkv_chain_all (range := r) (v := (RAstValue.inlineTable r2 [.mk r3 (some (k' :: more)) (some rv)]).tree.1) (rks ++ [k]) (by simp)
  have hal := alone_of_valid hv hroot (by simp)
  have hfound := found hv he hroot hsome (q := (rks ++ [k]).map RKey.text) (by simp) (List.prefix_refl _) hch.1 hal.1 hal.2
  rw [hch.2] at hfound
  obtain ⟨w, x', htree, hedit, htext⟩ := dotted_edit (after := after) hoff hat hdot
  rw [htree] at hfound
  have hcur : cursor [] [rks ++ [k], [k']] = level (rks ++ [k]) ++ [(k', .keyValue)] := by simp [cursor, level]
  obtain ⟨rest, hrev⟩ := level_one rks k
  have hes : inlineToDotted hasComment root.tree.1 (cursor [] [rks ++ [k], [k']]) =
      some [⟨Range.new k.range.stop k'.range.start, ['.']⟩, ⟨Range.new w.range.stop r2.stop, []⟩] := by
    rw [hcur, inlineToDotted, List.reverse_append, hrev]
    simp only [List.reverse_singleton, List.singleton_append]
    rw [List.dropLast_concat, show (level (rks ++ [k])).map (·.1.text) = ((level (rks ++ [k])).map (·.1)).map RKey.text by rw [List.map_map]; rfl,
      level_keys, hfound]
    simp only
    rw [if_pos (by simp [hcomment])]
  refine ⟨_, hes, ?_⟩
  have hlen2 := hlen' _ hes
  rw [hedit] at hlen2 ⊢
  obtain ⟨T, hT, hTn⟩ := Reading.C70_read_partial G (hplace _ _ hat.text) hn hlen hm hv hr hu
  obtain ⟨hn1, hn2⟩ := hn
  simp only at hn1 hn2
  rw [pairsNested_append, pairsNested, Pair.Nested, show maxRecursionDepth = (maxRecursionDepth - 1) + 1 from rfl, Val.Nested, pairsNested,
    pairsNested] at hn1
  have hks : ks.length = ((rks ++ [k]).map RKey.text).length := by
    cases hat with
    | mk hk _ _ _ _ _ _ => rw [hk.length.1, List.length_map]
  rw [herase] at hv
  obtain ⟨T', hT', hTn'⟩ := Reading.C70_read_partial G (v := v) (root := ⟨eraseKeyValues kvs1 ++ dotted ((rks ++ [k]).map RKey.text)
      ((k' :: more).map RKey.text) rv.erase :: eraseKeyValues kvs2, root.sections.map RAstSection.erase⟩) (hplace _ _ htext) ⟨by
    simp only
    rw [pairsNested_append, pairsNested]
    exact ⟨hn1.1, nested_succ_pair (ks := ks') hn1.2.1.1, hn1.2.2⟩, hn2⟩ hlen2 ⟨by
      simp only
      rw [pairsMean_append (by rw [length_erase]; exact hsame), dotted, pairsMean_one, keysMean_append hks]
      exact ⟨hm1, ⟨hmk, hmk'⟩, hmv, hm2⟩, hm.2⟩ (valid_dotted (by simp) hv) hr hu
  refine ⟨T, T', hT, hT', fun p => same_nodes fun n => ?_⟩
  rw [hTn, hTn', herase, same_docNodes (by simp) (by simp)]

/-! ### cases -/

/-- A range. -/
def rg (a b c d : Nat) : Range := ⟨⟨a, b⟩, ⟨c, d⟩⟩

/-- The offsets of a text with two lines, the first of which has `n` characters, the second `m`. -/
def offTwo (n m : Nat) (p : Position) : Nat := if p.line = 0 then min p.column n else if p.line = 1 then n + 1 + min p.column m else n + 1 + m

theorem offTwo_monotone (n m : Nat) : Monotone (offTwo n m) := by
  intro a b h
  rw [Locate.le_iff] at h
  unfold offTwo
  repeat' split
  all_goals omega

/-- The keys and the value of `a.b.c = 1`, after a line `d = 2`. -/
def kA : RKey := ⟨['a'], rg 1 0 1 1⟩
def kB : RKey := ⟨['b'], rg 1 2 1 3⟩
def kC : RKey := ⟨['c'], rg 1 4 1 5⟩
def kvD : RAstKeyValue Scalar := .mk (rg 0 0 0 5) (some [⟨['d'], rg 0 0 0 1⟩]) (some (.scalar (rg 0 4 0 5) (.integer 2)))
/-- The tree of `d = 2`, `a.b.c = 1`. -/
def dottedRoot : RAstRoot Scalar :=
  ⟨rg 0 0 1 9, [kvD, .mk (rg 1 0 1 9) (some [kA, kB, kC]) (some (.scalar (rg 1 8 1 9) (.integer 1)))], []⟩

theorem plain1 {c : Char} (h : Formatter.isLetter c = true) : wordsReadable.key (.bare [c]) := Formatter.name_plain (Reading.name1 h)
theorem dot1 {c : Char} (h : Formatter.isLetter c = true) : wordsReadable.keyBeforeDot (.bare [c]) := Formatter.name_dotKey (Reading.name1 h)

theorem one_val : (Val.lit .INTEGER_DEC ['1']).Text wordsReadable ['1'] := by rw [Val.Text]; exact ⟨⟨TomlFile.one_text, trivial⟩, rfl⟩
theorem two_val : (Val.lit .INTEGER_DEC ['2']).Text wordsReadable ['2'] := by rw [Val.Text]; exact ⟨⟨TomlFile.two_text, trivial⟩, rfl⟩

theorem sample_place : Around wordsReadable "d = 2\n".toList [] fun p => ⟨[.mk [.bare ['d']] (.lit .INTEGER_DEC ['2'])] ++ p :: [], []⟩ := by
  intro p x hx
  have h2 : Lines wordsReadable [p] [] ([] ++ (x ++ ([] ++ []))) := Lines.pairEnd ws0 hx ws0 (.inl rfl)
  have h1 : (Pair.mk [.bare ['d']] (.lit .INTEGER_DEC ['2'])).Text wordsReadable "d = 2".toList := by
    rw [Pair.Text]
    exact ⟨['d'], [' '], [' '], ['2'], .last (k := .bare ['d']) (plain1 (by decide)), ws1, ws1, two_val, rfl⟩
  have := Lines.pair (w := []) (w' := []) (c := []) (n := ['\n']) ws0 h1 ws0 (.inl rfl) (.inl rfl) h2
  simpa [FileText] using this

theorem sample_at : PairAt wordsReadable (offTwo 5 9) "d = 2\n".toList (.mk [.bare ['a'], .bare ['b'], .bare ['c']] (.lit .INTEGER_DEC ['1']))
    (.mk (rg 1 0 1 9) (some [kA, kB, kC]) (some (.scalar (rg 1 8 1 9) (Scalar.integer 1)))) "a.b.c = 1".toList :=
  .mk (k := "a.b.c".toList) (a := [' ']) (b := [' ']) (t := ['1'])
    (.dot (k := .bare ['a']) (a := []) (b := []) (t := "b.c".toList) (dot1 (by decide)) ws0 ws0 ⟨by decide, by decide⟩
      (.dot (k := .bare ['b']) (a := []) (b := []) (t := "c".toList) (dot1 (by decide)) ws0 ws0 ⟨by decide, by decide⟩
        (.last (k := .bare ['c']) (plain1 (by decide)) ⟨by decide, by decide⟩))) ws1 ws1 one_val rfl ⟨by decide, by decide⟩

theorem sample_means : FileMeans .V1_0_0 ⟨[.mk [.bare ['d']] (.lit .INTEGER_DEC ['2'])] ++
    .mk [.bare ['a'], .bare ['b'], .bare ['c']] (.lit .INTEGER_DEC ['1']) :: [], []⟩ dottedRoot.erase := by
  have h1 : Reading.LiteralMeans .V1_0_0 .INTEGER_DEC ['1'] (.integer 1) := .dec (t := ['1']) (by decide)
  have h2 : Reading.LiteralMeans .V1_0_0 .INTEGER_DEC ['2'] (.integer 2) := .dec (t := ['2']) (by decide)
  refine ⟨?_, by simp [Reading.secsMean, RAstRoot.erase, dottedRoot]⟩
  simp only [RAstRoot.erase, dottedRoot, kvD, eraseKeyValues, RAstKeyValue.erase, RAstValue.erase, List.singleton_append, Option.map_some, pairsMean, ValMeans]
  exact ⟨⟨.bare, trivial⟩, h2, ⟨.bare, .bare, .bare, trivial⟩, h1, trivial⟩

theorem sample_parent : ParentName ['a'] := by
  refine ⟨by decide, fun m h => ?_, fun _ => Formatter.name_plain (Reading.name1 (by decide))⟩
  simp at h

/-- The cursor is on `b` of `a.b.c = 1`: the hypotheses hold. -/
example (G : Segmenter) : ∃ es, dottedToInline dottedRoot.tree.1 (cursor [] [[kA, kB]]) = some es ∧
    SameData G .V1_0_0 "d = 2\na.b.c = 1".toList (applyEdits (offTwo 5 9) "d = 2\na.b.c = 1".toList es) := by
  have hes : dottedToInline dottedRoot.tree.1 (cursor [] [[kA, kB]]) =
      some [⟨rg 1 0 1 4, "a = { b.".toList⟩, ⟨rg 1 9 1 9, " }".toList⟩] := by decide +kernel
  refine C89_to_inline_partial (before := "d = 2\n".toList) (x := "a.b.c = 1".toList) (after := []) (rks := []) (k := kA) (k' := kB) (more := [kC])
    (kvs1 := [kvD]) (kvs2 := []) G (offTwo_monotone 5 9) sample_place rfl rfl sample_at sample_means
    (validB_sound _ (by decide +kernel)) trivial trivial ?_ (fun s h => by cases h) sample_parent
    (Formatter.name_plain (Reading.name1 (by decide))) (fun _ => Formatter.name_dotKey (Reading.name1 (by decide)))
    (by simp [pairsNested, Pair.Nested, Val.Nested]) ⟨by simp [pairsNested, Pair.Nested, Val.Nested], fun s h => by cases h⟩ (by decide) ?_
  · intro kv hkv r ks rv h
    simp only [List.append_nil, List.mem_singleton] at hkv
    subst hkv
    cases h
    decide
  · intro es h
    have := hes.symm.trans h
    cases this
    decide

/-- What is written. -/
example : (dottedToInline dottedRoot.tree.1 (cursor [] [[kA, kB]])).map (applyEdits (offTwo 5 9) "d = 2\na.b.c = 1".toList) =
    some "d = 2\na = { b.c = 1 }".toList := by decide +kernel

/-- The keys of `a = { b = 1 }`, after a line `d = 2`. -/
def kB' : RKey := ⟨['b'], rg 1 6 1 7⟩
/-- The tree of `d = 2`, `a = { b = 1 }`. -/
def inlineRoot : RAstRoot Scalar :=
  ⟨rg 0 0 1 13, [kvD, .mk (rg 1 0 1 13) (some [kA]) (some (.inlineTable (rg 1 4 1 13) [
    .mk (rg 1 6 1 11) (some [kB']) (some (.scalar (rg 1 10 1 11) (.integer 1)))]))], []⟩

theorem inline_at : InlineAt wordsReadable (offTwo 5 13) "d = 2\n".toList (.mk [.bare ['a']] (.table [.mk [.bare ['b']] (.lit .INTEGER_DEC ['1'])]))
    (.mk (rg 1 0 1 13) (some [kA]) (some (.inlineTable (rg 1 4 1 13) [
      .mk (rg 1 6 1 11) (some [kB']) (some (.scalar (rg 1 10 1 11) (Scalar.integer 1)))]))) "a = { b = 1 }".toList :=
  .mk (k := ['a']) (a := [' ']) (b := [' ']) (g := [' ']) (t := "b = 1".toList) (e := [' '])
    (.last (k := .bare ['a']) (plain1 (by decide)) ⟨by decide, by decide⟩) ws1 ws1 (.ws ws1 .nil)
    (.mk (k := ['b']) (a := [' ']) (b := [' ']) (t := ['1']) (.last (k := .bare ['b']) (plain1 (by decide)) ⟨by decide, by decide⟩) ws1 ws1 one_val rfl
      ⟨by decide, by decide⟩) (.inl (.ws ws1 .nil)) ⟨by decide, by decide⟩

theorem inline_means : FileMeans .V1_0_0 ⟨[.mk [.bare ['d']] (.lit .INTEGER_DEC ['2'])] ++
    .mk [.bare ['a']] (.table [.mk [.bare ['b']] (.lit .INTEGER_DEC ['1'])]) :: [], []⟩ inlineRoot.erase := by
  have h1 : Reading.LiteralMeans .V1_0_0 .INTEGER_DEC ['1'] (.integer 1) := .dec (t := ['1']) (by decide)
  have h2 : Reading.LiteralMeans .V1_0_0 .INTEGER_DEC ['2'] (.integer 2) := .dec (t := ['2']) (by decide)
  refine ⟨?_, by simp [Reading.secsMean, RAstRoot.erase, inlineRoot]⟩
  simp only [RAstRoot.erase, inlineRoot, kvD, eraseKeyValues, RAstKeyValue.erase, RAstValue.erase, List.singleton_append, Option.map_some, pairsMean, ValMeans]
  exact ⟨⟨.bare, trivial⟩, h2, ⟨.bare, trivial⟩, ⟨⟨.bare, trivial⟩, h1, trivial⟩, trivial⟩

/-- The cursor is on `b` of `a = { b = 1 }`: the hypotheses hold. -/
example (G : Segmenter) : ∃ es, inlineToDotted (fun _ => false) inlineRoot.tree.1 (cursor [] [[kA], [kB']]) = some es ∧
    SameData G .V1_0_0 "d = 2\na = { b = 1 }".toList (applyEdits (offTwo 5 13) "d = 2\na = { b = 1 }".toList es) := by
  have hes : inlineToDotted (fun _ => false) inlineRoot.tree.1 (cursor [] [[kA], [kB']]) =
      some [⟨rg 1 1 1 6, ['.']⟩, ⟨rg 1 11 1 13, []⟩] := by decide +kernel
  refine C89_to_dotted_partial (before := "d = 2\n".toList) (x := "a = { b = 1 }".toList) (after := []) (rks := []) (k := kA) (k' := kB') (more := [])
    (kvs1 := [kvD]) (kvs2 := []) G (offTwo_monotone 5 13) sample_place rfl rfl inline_at inline_means
    (validB_sound _ (by decide +kernel)) trivial trivial rfl ?_
    ⟨by simp [pairsNested, Pair.Nested, Val.Nested, maxRecursionDepth], fun s h => by cases h⟩ (by decide) ?_
  · intro c h
    cases h
    exact dot1 (by decide)
  · intro es h
    have := hes.symm.trans h
    cases this
    decide

/-- What is written. -/
example : (inlineToDotted (fun _ => false) inlineRoot.tree.1 (cursor [] [[kA], [kB']])).map (applyEdits (offTwo 5 13) "d = 2\na = { b = 1 }".toList) =
    some "d = 2\na.b = 1".toList := by decide +kernel

/-! ### what changes the data -/

/-- A text is read and has something at this place. -/
def readAt (t : Text) (p : Spec.Path) : Bool :=
  match readDocument charSegmenter .V1_0_0 t with
  | .ok T => (nodeAt T.value p).isSome
  | .error _ => false

theorem readAt_same {t t' : Text} (h : SameData charSegmenter .V1_0_0 t t') (p : Spec.Path) : readAt t p = readAt t' p := by
  obtain ⟨T, T', h1, h2, h3⟩ := h
  rw [readAt, readAt, h1, h2]
  simp only [h3]

/-- The tree of `a."b.c" = 1`. -/
def quotedRoot : RAstRoot Scalar :=
  ⟨rg 0 0 0 11, [.mk (rg 0 0 0 11) (some [⟨['a'], rg 0 0 0 1⟩, ⟨"b.c".toList, rg 0 2 0 7⟩]) (some (.scalar (rg 0 10 0 11) (.integer 1)))], []⟩

/-- **C89 is false** of a quoted key: the action writes it without its quotation marks. `a."b.c" = 1` becomes `a = { b.c = 1 }`, which has
other data. -/
theorem C89_quoted_false : ∃ es, dottedToInline quotedRoot.tree.1 (cursor [] [[⟨['a'], rg 0 0 0 1⟩, ⟨"b.c".toList, rg 0 2 0 7⟩]]) = some es ∧
    applyEdits (offTwo 11 0) "a.\"b.c\" = 1".toList es = "a = { b.c = 1 }".toList ∧
    ¬ SameData charSegmenter .V1_0_0 "a.\"b.c\" = 1".toList (applyEdits (offTwo 11 0) "a.\"b.c\" = 1".toList es) := by
  refine ⟨[⟨rg 0 0 0 10, "a = { b.c = ".toList⟩, ⟨rg 0 11 0 11, " }".toList⟩], by decide +kernel, by decide, fun h => ?_⟩
  have := readAt_same h [.key ['a'], .key "b.c".toList]
  revert this
  decide +kernel

/-- The tree of `a.b.c = 1`, `a.b.d = 2`. -/
def sharedRoot : RAstRoot Scalar :=
  ⟨rg 0 0 1 9, [.mk (rg 0 0 0 9) (some [⟨['a'], rg 0 0 0 1⟩, ⟨['b'], rg 0 2 0 3⟩, ⟨['c'], rg 0 4 0 5⟩]) (some (.scalar (rg 0 8 0 9) (.integer 1))),
    .mk (rg 1 0 1 9) (some [⟨['a'], rg 1 0 1 1⟩, ⟨['b'], rg 1 2 1 3⟩, ⟨['d'], rg 1 4 1 5⟩]) (some (.scalar (rg 1 8 1 9) (.integer 2)))], []⟩

/-- **C89 is false** of keys that two key-values share: the brace is closed after the last of them. `a.b.c = 1`, `a.b.d = 2` becomes
`a = { b.c = 1`, `a.b.d = 2 }`, which is read without errors here and has `a.a.b.d` in place of `a.b.d`. -/
theorem C89_shared_false : ∃ es, dottedToInline sharedRoot.tree.1 (cursor [] [[⟨['a'], rg 0 0 0 1⟩, ⟨['b'], rg 0 2 0 3⟩]]) = some es ∧
    applyEdits (offTwo 9 9) "a.b.c = 1\na.b.d = 2".toList es = "a = { b.c = 1\na.b.d = 2 }".toList ∧
    ¬ SameData charSegmenter .V1_0_0 "a.b.c = 1\na.b.d = 2".toList (applyEdits (offTwo 9 9) "a.b.c = 1\na.b.d = 2".toList es) := by
  refine ⟨[⟨rg 0 0 0 4, "a = { b.".toList⟩, ⟨rg 1 9 1 9, " }".toList⟩], by decide +kernel, by decide, fun h => ?_⟩
  have := readAt_same h [.key ['a'], .key ['b'], .key ['d']]
  revert this
  decide +kernel

/-- The tree of `a = { b.c = 1, b.d = 2 }`. -/
def commaRoot : RAstRoot Scalar :=
  ⟨rg 0 0 0 24, [.mk (rg 0 0 0 24) (some [⟨['a'], rg 0 0 0 1⟩]) (some (.inlineTable (rg 0 4 0 24) [
    .mk (rg 0 6 0 13) (some [⟨['b'], rg 0 6 0 7⟩, ⟨['c'], rg 0 8 0 9⟩]) (some (.scalar (rg 0 12 0 13) (.integer 1))),
    .mk (rg 0 15 0 22) (some [⟨['b'], rg 0 15 0 16⟩, ⟨['d'], rg 0 17 0 18⟩]) (some (.scalar (rg 0 21 0 22) (.integer 2)))]))], []⟩

/-- **C89 is false** of an inline table with two key-values that share their first key: `a = { b.c = 1, b.d = 2 }` becomes
`a.b.c = 1, b.d = 2`, which is not read. -/
theorem C89_comma_false : ∃ es, inlineToDotted (fun _ => false) commaRoot.tree.1 (cursor [] [[⟨['a'], rg 0 0 0 1⟩], [⟨['b'], rg 0 6 0 7⟩]]) = some es ∧
    applyEdits (offTwo 24 0) "a = { b.c = 1, b.d = 2 }".toList es = "a.b.c = 1, b.d = 2".toList ∧
    ¬ SameData charSegmenter .V1_0_0 "a = { b.c = 1, b.d = 2 }".toList (applyEdits (offTwo 24 0) "a = { b.c = 1, b.d = 2 }".toList es) := by
  refine ⟨[⟨rg 0 1 0 6, ['.']⟩, ⟨rg 0 22 0 24, []⟩], by decide +kernel, by decide, fun h => ?_⟩
  have := readAt_same h [.key ['a']]
  revert this
  decide +kernel

end Tombi.Refactor
