import Verif.Proofs.RefactorText
import Verif.Proofs.RefactorValid
import Verif.Proofs.SerializeWords
import Verif.Props.ReadDocument
import Verif.Proofs.Accessor
/-! The document of a refactored text, and what the refactorings find in its tree. -/
namespace Tombi.Refactor
open Tombi.Outline Spec
open Tombi.TomlFile (Val Pair Sec File Words KeyText Ws Gap Lines FileText keyText itemsText pairsText pairsNested itemsNested)
open Tombi.Format (AstKey)
open Tombi.Reading (Scalar KeyMeans keysMean pairsMean ValMeans FileMeans wordsReadable readDocument)

variable {σ : Type}

/-! ### the keys under the cursor -/

theorem level_reverse (keys : List RKey) :
    (level keys).reverse = keys.reverse.zipIdx.map fun ki => (ki.1, if ki.2 = 0 then KeyKind.keyValue else KeyKind.dotted) := by
  rw [level, List.reverse_reverse]

theorem level_keys (keys : List RKey) : (level keys).map (·.1) = keys := by
  rw [level, List.map_reverse, List.map_map]
  have : ((fun x : RKey × KeyKind => x.1) ∘ fun ki : RKey × Nat => (ki.1, if ki.2 = 0 then KeyKind.keyValue else KeyKind.dotted)) = Prod.fst := rfl
  rw [this, List.zipIdx_map_fst, List.reverse_reverse]

theorem level_two (ks : List RKey) (k k' : RKey) : ∃ rest, (level (ks ++ [k, k'])).reverse = (k', .keyValue) :: (k, .dotted) :: rest := by
  rw [level_reverse, List.reverse_append, List.reverse_cons, List.reverse_singleton]
  simp only [List.cons_append, List.nil_append, List.zipIdx_cons, List.map_cons]
  exact ⟨_, rfl⟩

theorem level_one (ks : List RKey) (k : RKey) : ∃ rest, (level (ks ++ [k])).reverse = (k, .keyValue) :: rest := by
  rw [level_reverse, List.reverse_append, List.reverse_singleton]
  simp only [List.cons_append, List.nil_append, List.zipIdx_cons, List.map_cons]
  exact ⟨_, rfl⟩

theorem dig_look {t : RTable σ} {q : List DKey} (hq : q ≠ []) : dig t.entries q = rlook t.value q := by
  cases q with
  | nil => exact absurd rfl hq
  | cons k q => rw [dig_eq, RTable.value, rlook_table]

/-! ### the document without ranges -/

theorem erase_append (a b : List (RAstKeyValue σ)) : eraseKeyValues (a ++ b) = eraseKeyValues a ++ eraseKeyValues b := by
  induction a with
  | nil => rfl
  | cons x a ih => simp only [List.cons_append, eraseKeyValues, ih]

theorem mem_erase {kv : RAstKeyValue σ} {kvs : List (RAstKeyValue σ)} (h : kv ∈ kvs) : kv.erase ∈ eraseKeyValues kvs := by
  induction kvs with
  | nil => cases h
  | cons x kvs ih =>
    rw [eraseKeyValues]
    rcases List.mem_cons.1 h with rfl | h
    · exact List.mem_cons_self
    · exact List.mem_cons_of_mem _ (ih h)

theorem length_erase (kvs : List (RAstKeyValue σ)) : (eraseKeyValues kvs).length = kvs.length := by
  induction kvs with
  | nil => rfl
  | cons x kvs ih => simp [eraseKeyValues, ih]

theorem pairsMean_append {v : TomlVersion} : {ps1 : List Pair} → {kvs1 : List (AstKeyValue Scalar)} → {ps2 : List Pair} →
    {kvs2 : List (AstKeyValue Scalar)} → ps1.length = kvs1.length →
    (pairsMean v (ps1 ++ ps2) (kvs1 ++ kvs2) ↔ pairsMean v ps1 kvs1 ∧ pairsMean v ps2 kvs2)
  | [], [], _, _, _ => by simp [pairsMean]
  | [], _ :: _, _, _, h => by simp at h
  | _ :: _, [], _, _, h => by simp at h
  | .mk ks x :: ps1, .mk (some ns) (some y) :: kvs1, ps2, kvs2, h => by
    simp only [List.cons_append, pairsMean]
    rw [pairsMean_append (by simpa using h)]
    simp only [and_assoc]
  | .mk ks x :: ps1, .mk none y :: kvs1, ps2, kvs2, h => by simp [pairsMean]
  | .mk ks x :: ps1, .mk (some ns) none :: kvs1, ps2, kvs2, h => by simp [pairsMean]

theorem pairsMean_some {v : TomlVersion} : {ps : List Pair} → {kvs : List (AstKeyValue Scalar)} → pairsMean v ps kvs →
    ∀ kv ∈ kvs, ∃ ks x, kv = .mk (some ks) (some x)
  | [], [], _, kv, h => by cases h
  | [], _ :: _, h, _, _ => by simp [pairsMean] at h
  | .mk _ _ :: _, [], h, _, _ => by simp [pairsMean] at h
  | .mk ks x :: ps, .mk (some ns) (some y) :: kvs, h, kv, hkv => by
    simp only [pairsMean] at h
    rcases List.mem_cons.1 hkv with rfl | hkv
    · exact ⟨_, _, rfl⟩
    · exact pairsMean_some h.2.2 kv hkv
  | .mk ks x :: ps, .mk none y :: kvs, h, _, _ => by simp [pairsMean] at h
  | .mk ks x :: ps, .mk (some ns) none :: kvs, h, _, _ => by simp [pairsMean] at h

theorem keysMean_append {v : TomlVersion} : {ks1 : List AstKey} → {ns1 : List DKey} → {ks2 : List AstKey} → {ns2 : List DKey} →
    ks1.length = ns1.length → (keysMean v (ks1 ++ ks2) (ns1 ++ ns2) ↔ keysMean v ks1 ns1 ∧ keysMean v ks2 ns2)
  | [], [], _, _, _ => by simp [keysMean]
  | [], _ :: _, _, _, h => by simp at h
  | _ :: _, [], _, _, h => by simp at h
  | k :: ks1, n :: ns1, ks2, ns2, h => by
    simp only [List.cons_append, keysMean]
    rw [keysMean_append (by simpa using h)]
    simp only [and_assoc]

/-! ### depth -/

mutual
theorem nested_succ : {x : Val} → {n : Nat} → x.Nested n → x.Nested (n + 1)
  | .lit _ _, n, _ => by cases n <;> simp [Val.Nested]
  | .array items, 0, h => by simp [Val.Nested] at h
  | .array items, n + 1, h => by
    rw [Val.Nested] at h ⊢
    exact items_succ h
  | .table pairs, 0, h => by simp [Val.Nested] at h
  | .table pairs, n + 1, h => by
    rw [Val.Nested] at h ⊢
    exact pairs_succ h
theorem items_succ : {xs : List Val} → {n : Nat} → itemsNested n xs → itemsNested (n + 1) xs
  | [], n, _ => by rw [itemsNested]; trivial
  | x :: xs, n, h => by
    rw [itemsNested] at h ⊢
    exact ⟨nested_succ h.1, items_succ h.2⟩
theorem pairs_succ : {ps : List Pair} → {n : Nat} → pairsNested n ps → pairsNested (n + 1) ps
  | [], n, _ => by rw [pairsNested]; trivial
  | .mk ks x :: ps, n, h => by
    rw [pairsNested, Pair.Nested] at h ⊢
    exact ⟨nested_succ h.1, pairs_succ h.2⟩
end

theorem pairsNested_append {n : Nat} (a b : List Pair) : pairsNested n (a ++ b) ↔ pairsNested n a ∧ pairsNested n b := by
  induction a with
  | nil => simp [pairsNested]
  | cons x a ih => simp only [List.cons_append, pairsNested, ih, and_assoc]

/-! ### the name of the parent -/

theorem plain_escape {n : Text} (h : ∀ c ∈ n, c ≠ '"' ∧ c ≠ '\\' ∧ 0x20 ≤ c.toNat ∧ ¬ (0x7F ≤ c.toNat ∧ c.toNat < 0xA0)) :
    (n.map TomlText.escapeChar).flatten = n := by
  induction n with
  | nil => rfl
  | cons c n ih =>
    rw [List.map_cons, List.flatten_cons, ih fun c h' => h c (List.mem_cons_of_mem _ h')]
    obtain ⟨h1, h2, h3, h4⟩ := h c List.mem_cons_self
    have hc : TomlText.escapeChar c = [c] := by
      unfold TomlText.escapeChar
      rw [if_neg h1, if_neg h2]
      repeat rw [if_neg (by rintro rfl; revert h3; decide)]
      rw [if_neg]
      unfold charIsControl
      simp
      omega
    rw [hc]
    rfl

theorem parent_key {n : Text} (h : ParentName n) (v : TomlVersion) :
    ∃ k, wordsReadable.key k ∧ KeyMeans v k n ∧ TomlFile.keyText k = TomlText.toKeyString n := by
  obtain ⟨h1, h2, h3⟩ := h
  rcases Accessor.toKeyString_cases n with ⟨⟨m, hm⟩, -⟩ | ⟨-, hb, he⟩ | ⟨-, hb, he⟩
  · exact absurd hm (h2 m)
  · refine ⟨.bare n, h3 ?_, .bare, he.symm⟩
    refine ⟨hb.1, fun c hc => ?_⟩
    rcases hb.2 c hc with h | h | h | h | h
    · exact .inl (by simp [Formatter.isLetter, inRange, h.1, h.2])
    · exact .inl (by simp [Formatter.isLetter, inRange, h.1, h.2])
    · exact .inr (.inl (by simp [inRange, h.1, h.2]))
    · exact .inr (.inr (.inl h))
    · exact .inr (.inr (.inr h))
  · have hp : Serializing.PlainText n := fun c hc => by
      obtain ⟨a, b, c1, d⟩ := h1 c hc
      exact ⟨a, b, .inr ⟨c1, by omega⟩⟩
    refine ⟨.basic ('"' :: (n ++ ['"'])), Serializing.plain_basic hp, .basic (Serializing.plain_decodes v hp), ?_⟩
    rw [he, TomlText.toBasicString, plain_escape h1]
    rfl

/-! ### what is found in the tree -/

theorem rkv_tree {r : Range} {ks : List RKey} {rv : RAstValue σ} : (RAstKeyValue.mk r (some ks) (some rv)).tree.1 = (rkeyValueTable r ks rv.tree.1).1 := by
  rw [RAstKeyValue.tree]

theorem erase_some {kv : RAstKeyValue σ} {ks : List DKey} {x : AstValue σ} (h : kv.erase = .mk (some ks) (some x)) :
    ∃ r rks rv, kv = .mk r (some rks) (some rv) ∧ ks = rks.map RKey.text ∧ x = rv.erase := by
  match kv with
  | .mk r none none => simp [RAstKeyValue.erase] at h
  | .mk r none (some _) => simp [RAstKeyValue.erase] at h
  | .mk r (some rks) none => simp [RAstKeyValue.erase] at h
  | .mk r (some rks) (some rv) =>
    simp only [RAstKeyValue.erase, Option.map_some, AstKeyValue.mk.injEq, Option.some.injEq] at h
    exact ⟨r, rks, rv, rfl, h.1.symm, h.2.symm⟩

theorem assigns_mem {kvs : List (RAstKeyValue σ)} {r : Range} {rks : List RKey} {rv : RAstValue σ} (h : RAstKeyValue.mk r (some rks) (some rv) ∈ kvs) :
    (rks.map RKey.text, rv.erase) ∈ kvAssigns (eraseKeyValues kvs) := by
  have := mem_erase h
  rw [RAstKeyValue.erase] at this
  rw [kvAssigns, List.mem_filterMap]
  exact ⟨_, this, rfl⟩

theorem mem_assigns_erase {kvs : List (RAstKeyValue σ)} {a : List DKey × AstValue σ} (h : a ∈ kvAssigns (eraseKeyValues kvs)) :
    ∃ r rks rv, RAstKeyValue.mk r (some rks) (some rv) ∈ kvs ∧ a.1 = rks.map RKey.text := by
  induction kvs with
  | nil => cases h
  | cons kv kvs ih =>
    rw [eraseKeyValues, kvAssigns, List.filterMap_cons] at h
    have hrest : a ∈ kvAssigns (eraseKeyValues kvs) → ∃ r rks rv, RAstKeyValue.mk r (some rks) (some rv) ∈ kv :: kvs ∧ a.1 = rks.map RKey.text := by
      intro h
      obtain ⟨r, rks, rv, h1, h2⟩ := ih h
      exact ⟨r, rks, rv, List.mem_cons_of_mem _ h1, h2⟩
    match kv, h with
    | .mk r none none, h => exact hrest h
    | .mk r none (some _), h => exact hrest h
    | .mk r (some rks) none, h => exact hrest h
    | .mk r (some rks) (some rv), h =>
      rcases List.mem_cons.1 h with rfl | h
      · exact ⟨r, rks, rv, List.mem_cons_self, rfl⟩
      · exact hrest h

theorem nested_succ_pair {ks ks' : List AstKey} {x : Val} {n : Nat} (h : (Pair.mk ks x).Nested n) : (Pair.mk ks' x).Nested (n + 1) := by
  rw [Pair.Nested] at h ⊢
  exact nested_succ h

/-- Where nothing else is assigned, the value in the tree is that of the key-value. -/
theorem found {root : RAstRoot σ} {kvs1 kvs2 : List (RAstKeyValue σ)} {r : Range} {ks : List RKey} {rv : RAstValue σ} {q : List DKey}
    (hv : Valid root.erase) (he : root.tree.2 = []) (hk : root.kvs = kvs1 ++ .mk r (some ks) (some rv) :: kvs2)
    (hsome : ∀ kv ∈ kvs1 ++ kvs2, ∃ ks x, kv.erase = .mk (some ks) (some x)) (hq : q ≠ []) (hp : q <+: ks.map RKey.text)
    (hc : chain (rkeyValueTable r ks rv.tree.1).1.value q)
    (ha : ∀ kv ∈ kvs1 ++ kvs2, ∀ r ks rv, kv = .mk r (some ks) (some rv) → ¬ q <+: ks.map RKey.text)
    (hs : ∀ s ∈ root.sections, ∀ h, s.header = some h → ¬ q <+: h.map RKey.text) :
    dig root.tree.1.entries q = rlook (rkeyValueTable r ks rv.tree.1).1.value q := by
  rw [dig_look hq]
  obtain ⟨-, h2, h3⟩ := hv
  have hF : (ks.map RKey.text, rv.erase) ∈ kvAssigns root.erase.kvs :=
    assigns_mem (r := r) (by rw [hk]; simp)
  have hFn : ks.map RKey.text ≠ [] := by
    intro h
    rw [h] at hp
    exact hq (List.prefix_nil.1 hp)
  have hsec := sections_apart hF hFn root.erase.sections [] [] (fun g _ _ h => by cases h) h3
  have hkv : ∀ kv ∈ kvs1 ++ kvs2, KvApart q kv := by
    intro kv hkv
    obtain ⟨ks', x, hx⟩ := hsome kv hkv
    obtain ⟨r', rks', rv', rfl, rfl, rfl⟩ := erase_some hx
    rw [KvApart, rkv_tree]
    refine rkv_misses _ _ ⟨fun h => ?_, ha _ hkv _ _ _ rfl⟩
    rw [RAstRoot.erase] at h2
    simp only [hk] at h2
    rw [KeysApart, erase_append, eraseKeyValues, kvAssigns_append, RAstKeyValue.erase] at h2
    rw [show kvAssigns (AstKeyValue.mk (Option.map (·.map RKey.text) (some ks)) (some rv.erase) :: eraseKeyValues kvs2) =
      (ks.map RKey.text, rv.erase) :: kvAssigns (eraseKeyValues kvs2) from rfl, List.pairwise_append, List.pairwise_cons] at h2
    rcases List.mem_append.1 hkv with hm | hm
    · exact (h2.2.2 _ (assigns_mem hm) _ List.mem_cons_self).1 (h.trans hp)
    · exact (h2.2.1.1 _ (assigns_mem hm)).2 (h.trans hp)
  rw [root_look he hk (by rw [rkv_tree]; exact hc) hq (fun kv h => hkv kv (List.mem_append_left _ h))
    (fun kv h => hkv kv (List.mem_append_right _ h)) ?_, rkv_tree]
  intro s hm
  obtain ⟨h, hh, hn, hap⟩ := hsec s.erase (by rw [RAstRoot.erase]; exact List.mem_map_of_mem hm)
  rw [RAstSection.erase] at hh
  simp only [Option.map_eq_some_iff] at hh
  obtain ⟨h', hh', rfl⟩ := hh
  exact ⟨h', hh', fun hx => hap.1 (hx.trans hp), hs s hm h' hh'⟩

/-- In a valid document no other key-value and no header begins with the keys of a key-value. -/
theorem alone_of_valid {root : RAstRoot σ} {kvs1 kvs2 : List (RAstKeyValue σ)} {r : Range} {ks : List RKey} {rv : RAstValue σ}
    (hv : Valid root.erase) (hk : root.kvs = kvs1 ++ .mk r (some ks) (some rv) :: kvs2) (hne : ks ≠ []) :
    (∀ kv ∈ kvs1 ++ kvs2, ∀ r' ks' rv', kv = .mk r' (some ks') (some rv') → ¬ ks.map RKey.text <+: ks'.map RKey.text) ∧
    (∀ s ∈ root.sections, ∀ h, s.header = some h → ¬ ks.map RKey.text <+: h.map RKey.text) := by
  obtain ⟨-, h2, h3⟩ := hv
  have hF : (ks.map RKey.text, rv.erase) ∈ kvAssigns root.erase.kvs := assigns_mem (r := r) (by rw [hk]; simp)
  refine ⟨?_, ?_⟩
  · rintro kv hkv r' ks' rv' rfl h
    rw [RAstRoot.erase] at h2
    simp only [hk] at h2
    rw [KeysApart, erase_append, eraseKeyValues, kvAssigns_append, RAstKeyValue.erase] at h2
    rw [show kvAssigns (AstKeyValue.mk (Option.map (·.map RKey.text) (some ks)) (some rv.erase) :: eraseKeyValues kvs2) =
      (ks.map RKey.text, rv.erase) :: kvAssigns (eraseKeyValues kvs2) from rfl, List.pairwise_append, List.pairwise_cons] at h2
    rcases List.mem_append.1 hkv with hm | hm
    · exact (h2.2.2 _ (assigns_mem hm) _ List.mem_cons_self).2 h
    · exact (h2.2.1.1 _ (assigns_mem hm)).1 h
  · intro s hs h hh hp
    obtain ⟨h', hh', -, ha⟩ := sections_apart hF (by simp [hne]) root.erase.sections [] [] (fun g _ _ h => by cases h) h3 s.erase
      (by rw [RAstRoot.erase]; exact List.mem_map_of_mem hs)
    rw [RAstSection.erase, hh] at hh'
    cases hh'
    exact ha.2 hp

end Tombi.Refactor
