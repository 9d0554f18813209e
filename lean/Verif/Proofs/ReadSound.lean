import Verif.Proofs.ReadTree
/-! Proofs for C70: what is read without errors has a meaning. -/
namespace Tombi.Reading
open SyntaxKind Spec TomlText Literals DateTime
open Tombi.TomlFile
open Tombi.Formatter (TomlLiteral Node Body Section Doc docOf)
open Tombi.Format (AstKey)

theorem PlainBody.regular {multi : Bool} {s : Text} (h : PlainBody multi s) : Tombi.Regular multi s :=
  ⟨h.ws, h.cr, h.nl, h.plus⟩

theorem PlainBody.trim {s : Text} (h : PlainBody true s) : Tombi.Regular true (trimNewline s) := by
  unfold trimNewline
  split
  · exact Regular.tail (a := ['\n']) h.regular
  · exact Regular.tail (a := ['\r', '\n']) h.regular
  · exact h.regular

/-- The character behind `hh:mm` in a time, or what follows it. -/
theorem time_fifth {w r : Text} (h : Toml.partialTime.Lang w) (hr : r.head? ≠ some '.') : (w ++ r)[5]? ≠ some '.' := by
  obtain ⟨u1, v1, rfl, h1, u2, v2, rfl, h2, u3, v3, rfl, h3, u4, v4, rfl, h4, rfl⟩ := h
  obtain ⟨a1, b1, rfl, k1, a2, b2, rfl, k2, rfl⟩ := h1
  obtain ⟨a3, b3, rfl, k3, a4, b4, rfl, k4, rfl⟩ := h3
  obtain ⟨x1, rfl, -⟩ := digit_lang k1
  obtain ⟨x2, rfl, -⟩ := digit_lang k2
  obtain ⟨x3, rfl, -⟩ := digit_lang k3
  obtain ⟨x4, rfl, -⟩ := digit_lang k4
  rw [lang_ch] at h2
  subst h2
  rcases h4 with ⟨a1, b1, rfl, k1, -⟩ | rfl
  · rw [lang_ch] at k1
    subst k1
    simp
  · simpa [List.head?_eq_getElem?] using hr

theorem lax_fifth {t : Time} {w r : Text} (h : LaxTimeText t w) : (w ++ r)[5]? = some '.' := by
  obtain ⟨a, b, f, ha, hb, -, -, rfl⟩ := h
  obtain ⟨h1, -⟩ := ha
  obtain ⟨h2, -⟩ := hb
  match a, h1 with
  | [a1, a2], _ => match b, h2 with
    | [b1, b2], _ => simp

theorem date_len {w : Text} (h : Toml.fullDate.Lang w) : w.length = 10 := (date_ascii h).1

theorem offset_not_dot {w : Text} (h : Toml.timeOffset.Lang w) : w.head? ≠ some '.' := by
  intro e
  cases w with
  | nil => cases e
  | cons c w =>
    simp at e
    subst e
    exact not_mem_lang (c := '.') (by decide) h (by simp)

/-- A literal with a value means that value. -/
theorem scalar_sound {v : TomlVersion} {k : SyntaxKind} {t : Text} {s : Scalar} (hl : TomlLiteral k t) (hr : Readable k t)
    (hp : PlainLiteral k t) (h : scalarOf v k t = some s) : LiteralMeans v k t s := by
  cases hl with
  | dec hl =>
    simp only [scalarOf, Option.map_eq_some_iff] at h
    obtain ⟨n, h, rfl⟩ := h
    obtain ⟨-, rfl, hi⟩ := (dec_eval (dec_text hl) n).mp h
    exact .dec hi
  | hex hl =>
    simp only [scalarOf, Option.map_eq_some_iff, Option.join_eq_some_iff] at h
    obtain ⟨n, h, rfl⟩ := h
    obtain ⟨-, rfl, hi⟩ := (prefixed_eval (radix := 16) (p := 'x') (by decide) (by decide) rfl hexdig_digits (sign := []) (.inl rfl)
      (prefix_of hl) (.inr hl) n).mp h
    exact .hex hi
  | oct hl =>
    simp only [scalarOf, Option.map_eq_some_iff, Option.join_eq_some_iff] at h
    obtain ⟨n, h, rfl⟩ := h
    obtain ⟨-, rfl, hi⟩ := (prefixed_eval (radix := 8) (p := 'o') (by decide) (by decide) rfl octdig_digits (sign := []) (.inl rfl)
      (prefix_of hl) (.inr hl) n).mp h
    exact .oct hi
  | bin hl =>
    simp only [scalarOf, Option.map_eq_some_iff, Option.join_eq_some_iff] at h
    obtain ⟨n, h, rfl⟩ := h
    obtain ⟨-, rfl, hi⟩ := (prefixed_eval (radix := 2) (p := 'b') (by decide) (by decide) rfl bindig_digits (sign := []) (.inl rfl)
      (prefix_of hl) (.inr hl) n).mp h
    exact .bin hi
  | float hl =>
    simp only [scalarOf, Option.map_eq_some_iff] at h
    obtain ⟨n, h, rfl⟩ := h
    cases hf : tryFromFloat t with
    | error => rw [hf] at h; cases h
    | ok o =>
      rw [hf] at h
      cases h
      obtain ⟨-, -, rfl⟩ := ((float_eval (float_text hl)).2 _).mp hf
      exact .float
  | boolean hl =>
    simp only [scalarOf, booleanOf] at h
    split at h
    · rename_i e; cases h; subst e; exact .true_
    · split at h
      · rename_i e; cases h; subst e; exact .false_
      · cases h
  | basic hl =>
    obtain ⟨items, -, rfl⟩ := hl
    have e : '"' :: (render items ++ ['"']) = quoted (render items) := by simp [quoted]
    simp only [scalarOf, Option.map_eq_some_iff] at h
    obtain ⟨o, h, rfl⟩ := h
    rw [e, tryFromBasicString_quoted] at h
    cases hb : parseBasicString (render items) v false with
    | error => rw [hb] at h; cases h
    | ok o' =>
      rw [hb] at h
      cases h
      exact .basic ((decodes_iff (hp _ rfl).regular).mpr ((parseBasicString_ok _ _ _ _).mp hb))
  | literal hl =>
    obtain ⟨body, -, -, -, rfl⟩ := hl
    have e : '\'' :: (body ++ ['\'']) = literal1 body := by simp [literal1]
    simp only [scalarOf, Option.map_eq_some_iff] at h
    obtain ⟨o, h, rfl⟩ := h
    have h' : tryFromLiteralString (literal1 body) = some (.ok o) := by
      rw [e] at h
      revert h
      unfold okOf
      split
      · intro h; cases h; assumption
      · nofun
    cases (C15_literal_string body).2 o h'
    exact .literal ((C15_literal_string _).1.mp ⟨_, h'⟩)
  | multiBasic hl hl' =>
    obtain ⟨body, rfl⟩ : ∃ body, t = ['"', '"', '"'] ++ body ++ ['"', '"', '"'] := ⟨_, hl.2.2⟩
    obtain ⟨h1, h2, -⟩ := hr body rfl
    simp only [scalarOf, Option.map_eq_some_iff] at h
    obtain ⟨o, h, rfl⟩ := h
    rw [show ['"', '"', '"'] ++ body ++ ['"', '"', '"'] = quoted3 body from rfl, tryFromMultiLineBasicString_quoted3,
      drop_newlines h1 h2] at h
    cases hb : parseBasicString (trimNewline body) v true with
    | error => rw [hb] at h; cases h
    | ok o' =>
      rw [hb] at h
      cases h
      exact .multiBasic ((decodes_iff (hp _ rfl).trim).mpr ((parseBasicString_ok _ _ _ _).mp hb))
  | multiLiteral hl =>
    obtain ⟨body, -, rfl⟩ := hl
    obtain ⟨h1, h2⟩ := hr body rfl
    simp only [scalarOf, Option.map_eq_some_iff] at h
    obtain ⟨o, h, rfl⟩ := h
    rw [show ['\'', '\'', '\''] ++ body ++ ['\'', '\'', '\''] = literal3 body from rfl, tryFromMultiLineLiteralString_literal3,
      drop_newlines h1 h2] at h
    cases hb : parseLiteralString (trimNewline body) true with
    | error => rw [hb] at h; cases h
    | ok o' =>
      rw [hb] at h
      cases h
      obtain ⟨rfl, hok⟩ := (literalLoop_ok true [] _ _).mp hb
      exact .multiLiteral hok
  | localDate hl =>
    simp only [scalarOf, Option.map_eq_some_iff] at h
    obtain ⟨d, h, rfl⟩ := h
    cases hd : tryNewLocalDate v t with
    | error => rw [hd] at h; cases h
    | ok d' =>
      rw [hd] at h
      cases h
      rw [tryNewLocalDate, mapError_ok, C21_local_date] at hd
      exact .localDate hd.1 hd.2
  | localTime hl =>
    simp only [scalarOf, Option.map_eq_some_iff] at h
    obtain ⟨d, h, rfl⟩ := h
    cases hd : tryNewLocalTime v t with
    | error => rw [hd] at h; cases h
    | ok d' =>
      rw [hd] at h
      cases h
      exact .localTime ((C47_local_time v t _).mp hd)
  | localDateTime hl =>
    simp only [scalarOf, Option.map_eq_some_iff] at h
    obtain ⟨d, h, rfl⟩ := h
    cases hd : tryNewLocalDateTime v t with
    | error => rw [hd] at h; cases h
    | ok d' =>
      rw [hd] at h
      cases h
      obtain ⟨h1, h2, wd, c, wt, h3, h4, h5, rfl⟩ := (local_date_time_eval (localDateTime_text hl) v _ _).mp hd
      refine .localDateTime h3 h1 h4 ⟨h2, h5.imp id fun x => ⟨x.1, x.2.resolve_right fun hlax => ?_⟩⟩
      obtain ⟨d', v1, e, hd', s', v2, rfl, hs, t', v3, rfl, ht, rfl⟩ := hl
      obtain ⟨rfl, e'⟩ := append_inj_len e (by rw [h3.len, date_len hd'])
      obtain ⟨x, rfl, -⟩ := sep_of hs
      cases e'
      exact time_fifth ht (r := []) (by simp) (by simpa using lax_fifth hlax (r := []))
  | offsetDateTime hl =>
    simp only [scalarOf, Option.map_eq_some_iff] at h
    obtain ⟨d, h, rfl⟩ := h
    cases hd : tryNewOffsetDateTime v t with
    | error => rw [hd] at h; cases h
    | ok d' =>
      rw [hd] at h
      cases h
      obtain ⟨h1, h2, wd, c, wt, wo, h3, h4, h5, h6, rfl⟩ := (offset_date_time_eval (offsetDateTime_text hl) v _ _ _).mp hd
      refine .offsetDateTime h3 h1 h4 ⟨h2, h5.imp id fun x => ⟨x.1, x.2.resolve_right fun hlax => ?_⟩⟩ h6
      obtain ⟨d', v1, e, hd', s', v2, rfl, hs, t', v3, rfl, ht, z, v4, rfl, hz, rfl⟩ := hl
      rw [List.append_assoc] at e
      obtain ⟨rfl, e'⟩ := append_inj_len e (by rw [h3.len, date_len hd'])
      obtain ⟨x, rfl, -⟩ := sep_of hs
      simp only [List.cons_append, List.nil_append, List.append_nil, List.cons.injEq] at e'
      refine time_fifth ht (r := z) (offset_not_dot hz) ?_
      rw [← e'.2]
      exact lax_fifth hlax

/-- A key that can be decoded means its name. -/
theorem key_sound {v : TomlVersion} {k : AstKey} (hk : wordsPlain.key k ∨ wordsPlain.keyBeforeDot k)
    (h : (rawKey v k).isSome = true) : KeyMeans v k (keyOr v k) := by
  have hr : TomlKey k := by
    rcases hk with hk | hk
    · exact usual_key _ hk.1
    · exact usual_key _ (before_key hk.1)
  have hp : PlainName k := by
    rcases hk with hk | hk
    · exact hk.2
    · exact hk.2
  unfold keyOr
  cases k with
  | bare t =>
    have := key_read (v := v) hr (.bare (t := t))
    rw [this]
    exact .bare
  | basic t =>
    obtain ⟨items, -, rfl⟩ := hr
    obtain ⟨o, h⟩ := Option.isSome_iff_exists.mp h
    rw [h]
    have e : '"' :: (render items ++ ['"']) = quoted (render items) := by simp [quoted]
    rw [rawKey, e, tryFromBasicString_quoted] at h
    cases hb : parseBasicString (render items) v false with
    | error => rw [hb] at h; cases h
    | ok o' =>
      rw [hb] at h
      cases h
      exact .basic ((decodes_iff (hp _ rfl).regular).mpr ((parseBasicString_ok _ _ _ _).mp hb))
  | literal t =>
    obtain ⟨body, -, -, -, rfl⟩ := hr
    obtain ⟨o, h⟩ := Option.isSome_iff_exists.mp h
    rw [h]
    have e : '\'' :: (body ++ ['\'']) = literal1 body := by simp [literal1]
    have h' : tryFromLiteralString (literal1 body) = some (.ok o) := by
      rw [rawKey, e] at h
      revert h
      unfold okOf
      split
      · intro h; cases h; assumption
      · nofun
    cases (C15_literal_string body).2 o h'
    exact .literal ((C15_literal_string _).1.mp ⟨_, h'⟩)

theorem keys_sound {v : TomlVersion} {ks : List AstKey} (hk : KeysFine wordsPlain ks) (h : Decoded v ks) :
    keysMean v ks (ks.map (keyOr v)) := by
  replace hk := hk.2
  induction ks with
  | nil => trivial
  | cons k ks ih =>
    exact ⟨key_sound (hk k (by simp)) (h k (by simp)), ih (fun k' h' => h k' (by simp [h'])) fun k' h' => hk k' (by simp [h'])⟩

theorem Decoded.split {v : TomlVersion} {a b : List AstKey} (h : Decoded v (a ++ b)) : Decoded v a ∧ Decoded v b :=
  ⟨fun k hk => h k (by simp [hk]), fun k hk => h k (by simp [hk])⟩

theorem not_pair' {k : SyntaxKind} {t : Text} (h : ValFine wordsPlain (.lit k t)) : k ≠ KEY_VALUE := by
  rw [ValFine] at h
  rintro rfl
  cases h.1.1

/-- Errors of the key-values are errors of the table. -/
theorem merge_ok {σ : Type} (t : DTable σ) (kv : AstKeyValue σ) (rest : List (AstKeyValue σ))
    (h : (mergeKeyValues t (kv :: rest)).2 = []) : kv.tree.2 = [] ∧ ∃ t', (mergeKeyValues t' rest).2 = [] := by
  rw [mergeKeyValues] at h
  simp only [List.append_eq_nil_iff] at h
  exact ⟨h.1.1, _, h.2⟩

theorem pair_ok {σ : Type} (ks : List DKey) (y : AstValue σ) (h : (AstKeyValue.mk (some ks) (some y)).tree.2 = []) : y.tree.2 = [] := by
  rw [AstKeyValue.tree] at h
  simp only [List.append_eq_nil_iff] at h
  exact h.1

mutual
theorem value_sound (v : TomlVersion) : (n : Node) → ValFine wordsPlain (valOf n) → (valueOf v n).tree.2 = [] →
    Decoded v (nodeKeys n) → ValMeans v (valOf n) (valueOf v n)
  | .lit _ k t _, hf, he, _ => by
    rw [valOf] at hf ⊢
    rw [ValFine] at hf
    rw [valueOf] at he ⊢
    cases hs : scalarOf v k t with
    | none => rw [hs] at he; simp only [AstValue.tree] at he; cases he
    | some s => rw [ValMeans]; exact scalar_sound hf.1.1 hf.1.2 hf.2 hs
  | .array _ _ b _, hf, he, hd => by
    rw [valOf] at hf ⊢
    rw [ValFine] at hf
    rw [valueOf, AstValue.tree] at he
    rw [valueOf, ValMeans]
    rw [nodeKeys] at hd
    exact items_sound v b hf he hd
  | .table _ _ b _, hf, he, hd => by
    rw [valOf] at hf ⊢
    rw [ValFine] at hf
    rw [valueOf, AstValue.tree] at he
    rw [valueOf, ValMeans]
    rw [nodeKeys] at hd
    exact pairs_sound v b _ hf he hd
  | .pair _ _ _ _, hf, _, _ => by
    rw [valOf] at hf
    exact absurd rfl (not_pair' hf)
theorem items_sound (v : TomlVersion) : (b : Body) → itemsFine wordsPlain (valsOf b) → (arrayTrees (itemsOf v b)).2 = [] →
    Decoded v (itemKeys b) → itemsMean v (valsOf b) (itemsOf v b)
  | .nil, _, _, _ => by rw [valsOf, itemsOf, itemsMean]; trivial
  | .dangling _ _ b, hf, he, hd => by
    rw [valsOf] at hf ⊢
    rw [itemsOf] at he ⊢
    rw [itemKeys] at hd
    exact items_sound v b hf he hd
  | .item _ (.pair ..) _ b, hf, he, hd => by
    rw [valsOf, itemsFine, valOf] at hf
    exact absurd rfl (not_pair' hf.1)
  | .item _ (.lit l k t tr) _ b, hf, he, hd => by
    rw [valsOf, itemsFine] at hf
    rw [itemsOf, arrayTrees] at he
    · simp only [List.append_eq_nil_iff, AstItem.tree] at he
      rw [itemKeys] at hd
      · rw [valsOf, itemsOf, itemsMean]
        · exact ⟨value_sound v _ hf.1 he.1 hd.split.1, items_sound v b hf.2 he.2 hd.split.2⟩
        all_goals simp
      all_goals simp
    all_goals simp
  | .item _ (.array l k t tr) _ b, hf, he, hd => by
    rw [valsOf, itemsFine] at hf
    rw [itemsOf, arrayTrees] at he
    · simp only [List.append_eq_nil_iff, AstItem.tree] at he
      rw [itemKeys] at hd
      · rw [valsOf, itemsOf, itemsMean]
        · exact ⟨value_sound v _ hf.1 he.1 hd.split.1, items_sound v b hf.2 he.2 hd.split.2⟩
        all_goals simp
      all_goals simp
    all_goals simp
  | .item _ (.table l k t tr) _ b, hf, he, hd => by
    rw [valsOf, itemsFine] at hf
    rw [itemsOf, arrayTrees] at he
    · simp only [List.append_eq_nil_iff, AstItem.tree] at he
      rw [itemKeys] at hd
      · rw [valsOf, itemsOf, itemsMean]
        · exact ⟨value_sound v _ hf.1 he.1 hd.split.1, items_sound v b hf.2 he.2 hd.split.2⟩
        all_goals simp
      all_goals simp
    all_goals simp
theorem pairs_sound (v : TomlVersion) : (b : Body) → (t : DTable Scalar) → pairsFine wordsPlain (pairsOf b) →
    (mergeKeyValues t (keyValuesOf v b)).2 = [] → Decoded v (pairKeys b) → pairsMean v (pairsOf b) (keyValuesOf v b)
  | .nil, _, _, _, _ => by rw [pairsOf, keyValuesOf, pairsMean]; trivial
  | .dangling _ _ b, t, hf, he, hd => by
    rw [pairsOf] at hf ⊢
    rw [keyValuesOf] at he ⊢
    rw [pairKeys] at hd
    exact pairs_sound v b t hf he hd
  | .item _ (.pair _ ks _ n) _ b, t, hf, he, hd => by
    rw [pairsOf, pairsFine] at hf
    rw [keyValuesOf] at he
    obtain ⟨h1, t', h2⟩ := merge_ok _ _ _ he
    rw [pairKeys] at hd
    obtain ⟨hd1, hd2⟩ := hd.split
    obtain ⟨hd0, hd1⟩ := hd1.split
    rw [pairsOf, keyValuesOf, pairsMean]
    exact ⟨keys_sound hf.1.1 hd0, value_sound v n hf.1.2 (pair_ok _ _ h1) hd1, pairs_sound v b t' hf.2 h2 hd2⟩
  | .item _ (.lit ..) _ b, t, hf, he, hd => by
    rw [pairsOf] at hf
    · rw [keyValuesOf] at he
      · rw [pairKeys] at hd
        · rw [pairsOf, keyValuesOf]
          · exact pairs_sound v b t hf he hd
          all_goals simp
        all_goals simp
      all_goals simp
    all_goals simp
  | .item _ (.array ..) _ b, t, hf, he, hd => by
    rw [pairsOf] at hf
    · rw [keyValuesOf] at he
      · rw [pairKeys] at hd
        · rw [pairsOf, keyValuesOf]
          · exact pairs_sound v b t hf he hd
          all_goals simp
        all_goals simp
      all_goals simp
    all_goals simp
  | .item _ (.table ..) _ b, t, hf, he, hd => by
    rw [pairsOf] at hf
    · rw [keyValuesOf] at he
      · rw [pairKeys] at hd
        · rw [pairsOf, keyValuesOf]
          · exact pairs_sound v b t hf he hd
          all_goals simp
        all_goals simp
      all_goals simp
    all_goals simp
end

theorem section_ok {σ : Type} (prev : List (AstSection σ)) (arr : Bool) (header : List DKey) (kvs : List (AstKeyValue σ))
    (h : (AstSection.tree prev ⟨arr, some header, kvs⟩).2 = []) : (mergeKeyValues ⟨.table, []⟩ kvs).2 = [] := by
  unfold AstSection.tree at h
  simp only [] at h
  split at h
  · split at h
    · exact h
    · simp only [List.append_eq_nil_iff] at h
      exact h.1.1
  · simp only [List.append_eq_nil_iff] at h
    exact h.1

theorem secs_sound (v : TomlVersion) : (ss : List Section) → (prev : List (AstSection Scalar)) → (t : DTable Scalar) →
    (∀ s ∈ ss.map secOf, KeysFine wordsPlain s.header ∧ pairsFine wordsPlain s.pairs) →
    (mergeSections prev t (ss.map fun s => ⟨s.isArray, some (s.header.map (keyOr v)), keyValuesOf v s.body⟩)).2 = [] →
    Decoded v (ss.flatMap fun s => s.header ++ pairKeys s.body) →
    secsMean v (ss.map secOf) (ss.map fun s => ⟨s.isArray, some (s.header.map (keyOr v)), keyValuesOf v s.body⟩)
  | [], _, _, _, _, _ => trivial
  | s :: ss, prev, t, hf, he, hd => by
    rw [List.map_cons, mergeSections] at he
    simp only [List.append_eq_nil_iff] at he
    rw [List.flatMap_cons] at hd
    obtain ⟨hd1, hd2⟩ := hd.split
    obtain ⟨hd0, hd1⟩ := hd1.split
    have hs := hf (secOf s) (by simp)
    exact ⟨⟨rfl, ⟨_, rfl, keys_sound hs.1 hd0⟩, pairs_sound v s.body _ hs.2 (section_ok _ _ _ _ he.1.1) hd1⟩,
      secs_sound v ss _ _ (fun s' h => hf s' (by simp [h])) he.2 hd2⟩

/-- A document that is converted without errors has a meaning, and is converted to it. -/
theorem root_sound {v : TomlVersion} {d : Doc} {t : Text} (h : FileText wordsPlain (fileOf d) t)
    (he : (astRoot v d).tree.2 = []) (hd : Decoded v (docKeys d)) : FileMeans v (fileOf d) (astRoot v d) := by
  obtain ⟨h1, h2⟩ := lines_fine h
  unfold AstRoot.tree at he
  simp only [List.append_eq_nil_iff] at he
  obtain ⟨hd1, hd2⟩ := hd.split
  exact ⟨pairs_sound v d.body _ h1 he.1 hd1, secs_sound v d.sections _ _ h2 he.2 hd2⟩

end Tombi.Reading
