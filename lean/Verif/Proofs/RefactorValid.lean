import Verif.Spec.Valid
import Verif.Spec.Refactor
/-! The document of a refactored text: the same nodes, and no key is defined twice. -/
namespace Tombi.Refactor
open Spec

variable {σ : Type}

/-- `K.M = v`. -/
def dotted (K M : List DKey) (v : AstValue σ) : AstKeyValue σ := .mk (some (K ++ M)) (some v)
/-- `K = { M = v }`. -/
def inlined (K M : List DKey) (v : AstValue σ) : AstKeyValue σ := .mk (some K) (some (.inlineTable [.mk (some M) (some v)]))

/-! ### nodes -/

theorem assign_inline {vn : List (Spec.Path × Spec.Node σ)} {M : List DKey} (hM : M ≠ []) : (K : List DKey) → K ≠ [] →
    assignNodes vn (K ++ M) = assignNodes (([], .table) :: assignNodes vn M) K
  | [], h => absurd rfl h
  | [k], _ => by
    cases M with
    | nil => exact absurd rfl hM
    | cons m M => simp [assignNodes, below]
  | k :: k' :: K, _ => by
    have := assign_inline (vn := vn) hM (k' :: K) (by simp)
    simp only [List.cons_append, assignNodes] at this ⊢
    rw [this]

theorem same_kvNodes {K M : List DKey} {v : AstValue σ} (hK : K ≠ []) (hM : M ≠ []) : kvNodes (dotted K M v) = kvNodes (inlined K M v) := by
  rw [dotted, inlined, kvNodes, kvNodes, assign_inline hM K hK, valueNodes, kvsNodes, kvNodes, kvsNodes, List.append_nil]

theorem kvsNodes_append (a b : List (AstKeyValue σ)) : kvsNodes (a ++ b) = kvsNodes a ++ kvsNodes b := by
  induction a with
  | nil => simp [kvsNodes]
  | cons x a ih => simp only [List.cons_append, kvsNodes, ih, List.append_assoc]

theorem same_docNodes {kvs1 kvs2 : List (AstKeyValue σ)} {ss : List (AstSection σ)} {K M : List DKey} {v : AstValue σ} (hK : K ≠ []) (hM : M ≠ []) :
    docNodes (⟨kvs1 ++ dotted K M v :: kvs2, ss⟩ : AstRoot σ) = docNodes ⟨kvs1 ++ inlined K M v :: kvs2, ss⟩ := by
  simp only [docNodes, kvsNodes_append, kvsNodes, same_kvNodes hK hM]

/-! ### paths -/

/-- The keys of a path. -/
def keysOf (p : Spec.Path) : List DKey := p.filterMap fun | .key k => some k | .index _ => none

theorem keysOf_append (a b : Spec.Path) : keysOf (a ++ b) = keysOf a ++ keysOf b := by simp [keysOf]
theorem keysOf_keyPath (ks : List DKey) : keysOf (keyPath ks) = ks := by
  induction ks with
  | nil => rfl
  | cons k ks ih => rw [keyPath] at ih; rw [keyPath, List.map_cons, keysOf, List.filterMap_cons]; simp only; rw [← keysOf, ih]

theorem keysOf_enter (opened : List Spec.Path) (p : Spec.Path) : keysOf (enter opened p) = keysOf p := by
  rw [enter]
  split
  · rfl
  · rw [keysOf_append]; simp [keysOf]

theorem keysOf_resolve (opened : List Spec.Path) : (ks : List DKey) → (cur : Spec.Path) → keysOf (resolve opened cur ks) = keysOf cur ++ ks
  | [], cur => by simp [resolve]
  | k :: ks, cur => by
    rw [resolve, keysOf_resolve opened ks, keysOf_enter, keysOf_append]
    simp [keysOf]

theorem keysOf_named (opened : List Spec.Path) {h : List DKey} (hh : h ≠ []) : keysOf (named opened h) = h := by
  rw [named, List.getLast?_eq_some_getLast hh]
  simp only
  rw [keysOf_append, keysOf_resolve]
  have := List.dropLast_concat_getLast hh
  simp only [keysOf, List.filterMap_cons, List.filterMap_nil, List.nil_append]
  exact this

theorem named_section (opened : List Spec.Path) (s : AstSection σ) : named opened (s.header.getD []) <+: sectionPath opened s := by
  rw [sectionPath]
  split
  · exact List.prefix_append _ _
  · exact List.prefix_refl _

theorem keysOf_section (opened : List Spec.Path) (s : AstSection σ) {h : List DKey} (hs : s.header = some h) (hh : h ≠ []) :
    keysOf (sectionPath opened s) = h := by
  rw [sectionPath, hs]
  simp only [Option.getD_some]
  split
  · rw [keysOf_append, keysOf_named opened hh]; simp [keysOf]
  · exact keysOf_named opened hh

theorem keyPath_append (a b : List DKey) : keyPath (a ++ b) = keyPath a ++ keyPath b := by simp [keyPath]

theorem keyPath_prefix {a b : List DKey} (h : a <+: b) : keyPath a <+: keyPath b := by
  obtain ⟨t, rfl⟩ := h
  rw [keyPath_append]
  exact List.prefix_append _ _

theorem keysOf_prefix {a b : Spec.Path} (h : a <+: b) : keysOf a <+: keysOf b := by
  obtain ⟨t, rfl⟩ := h
  rw [keysOf_append]
  exact List.prefix_append _ _

theorem section_prefix {opened : List Spec.Path} {s : AstSection σ} {h K : List DKey} (hs : s.header = some h) (hh : h ≠ [])
    (hp : keyPath K <+: sectionPath opened s) : K <+: h := by
  have := keysOf_prefix hp
  rwa [keysOf_keyPath, keysOf_section opened s hs hh] at this

/-! ### assignments -/

theorem kvAssigns_append (a b : List (AstKeyValue σ)) : kvAssigns (a ++ b) = kvAssigns a ++ kvAssigns b := by simp [kvAssigns]

theorem kvAssigns_dotted {K M : List DKey} {v : AstValue σ} (b : List (AstKeyValue σ)) : kvAssigns (dotted K M v :: b) = (K ++ M, v) :: kvAssigns b := rfl
theorem kvAssigns_inlined {K M : List DKey} {v : AstValue σ} (b : List (AstKeyValue σ)) :
    kvAssigns (inlined K M v :: b) = (K, .inlineTable [.mk (some M) (some v)]) :: kvAssigns b := rfl

theorem validKvs_append (a b : List (AstKeyValue σ)) : ValidKvs (a ++ b) ↔ ValidKvs a ∧ ValidKvs b := by
  induction a with
  | nil => simp [ValidKvs]
  | cons x a ih => simp only [List.cons_append, ValidKvs, ih, and_assoc]

/-! ### no header touches the keys of a key-value -/

/-- No array of tables lies along the keys. -/
def Unopened (F : List DKey) (opened : List Spec.Path) : Prop := ∀ g, g <+: F → g ≠ [] → keyPath g ∉ opened

theorem resolve_along {F : List DKey} {opened : List Spec.Path} (hu : Unopened F opened) : (g pre : List DKey) → pre ++ g <+: F →
    resolve opened (keyPath pre) g = keyPath (pre ++ g)
  | [], pre, _ => by rw [resolve, List.append_nil]
  | k :: g, pre, h => by
    have h' : (pre ++ [k]) ++ g <+: F := by rwa [List.append_assoc]
    have he : enter opened (keyPath pre ++ [.key k]) = keyPath (pre ++ [k]) := by
      rw [keyPath_append]
      have : keyPath pre ++ [.key k] ∉ opened := by
        have := hu (pre ++ [k]) ((List.prefix_append _ _).trans h') (by simp)
        rwa [keyPath_append] at this
      rw [enter, List.count_eq_zero_of_not_mem this]
      rfl
    rw [resolve, he, resolve_along hu g _ h', List.append_assoc]
    rfl

theorem resolve_grows (opened : List Spec.Path) : (ks : List DKey) → (cur : Spec.Path) → cur <+: resolve opened cur ks
  | [], cur => by rw [resolve]; exact List.prefix_refl _
  | k :: ks, cur => by
    rw [resolve]
    refine List.IsPrefix.trans ?_ (resolve_grows opened ks _)
    rw [enter]
    split
    · exact List.prefix_append _ _
    · rw [List.append_assoc]; exact List.prefix_append _ _

theorem resolve_append (opened : List Spec.Path) : (a b : List DKey) → (cur : Spec.Path) →
    resolve opened cur (a ++ b) = resolve opened (resolve opened cur a) b
  | [], b, cur => by simp [resolve]
  | k :: a, b, cur => by rw [List.cons_append, resolve, resolve_append opened a b, resolve]

theorem named_along {F : List DKey} {opened : List Spec.Path} (hu : Unopened F opened) {h : List DKey} (hh : h ≠ []) (hp : h <+: F) :
    named opened h = keyPath h := by
  rw [named, List.getLast?_eq_some_getLast hh]
  simp only
  have := resolve_along hu h.dropLast [] (by
    rw [List.nil_append]
    exact (List.dropLast_prefix _).trans hp)
  rw [show (keyPath [] : Spec.Path) = [] from rfl, List.nil_append] at this
  rw [this]
  have e := List.dropLast_concat_getLast hh
  conv => rhs; rw [← e]
  rw [keyPath_append]
  rfl

theorem dotted_mem {F h : List DKey} {v : AstValue σ} {kvs : List (AstKeyValue σ)} (hF : (F, v) ∈ kvAssigns kvs) (hh : h ≠ []) (hp : h <+: F)
    (hn : h ≠ F) : keyPath h ∈ dottedOf (([], kvs) : Spec.Path × List (AstKeyValue σ)) := by
  obtain ⟨t, rfl⟩ := hp
  have ht : t ≠ [] := by rintro rfl; simp at hn
  rw [dottedOf, List.mem_flatMap]
  refine ⟨_, hF, List.mem_map.2 ⟨h.length - 1, ?_, ?_⟩⟩
  · have := List.length_pos_iff.2 hh
    have := List.length_pos_iff.2 ht
    simp; omega
  · have := List.length_pos_iff.2 hh
    rw [Nat.sub_add_cancel this]
    simp

theorem sections_apart {F : List DKey} {v : AstValue σ} {kvs : List (AstKeyValue σ)} (hF : (F, v) ∈ kvAssigns kvs) (hne : F ≠ []) :
    (ss : List (AstSection σ)) → (rest : List (Spec.Path × List (AstKeyValue σ))) → (opened : List Spec.Path) → Unopened F opened →
    AllFollow (([], kvs) :: rest) opened ss → ∀ s ∈ ss, ∃ h, s.header = some h ∧ h ≠ [] ∧ Apart h F
  | [], _, _, _, _, s, hs => by cases hs
  | s :: ss, rest, opened, hu, hf, s', hs' => by
    rw [AllFollow] at hf
    obtain ⟨hf, hrest⟩ := hf
    obtain ⟨h, hh, hhn⟩ := hf.header
    have hv : ¬ keyPath F <+: sectionPath opened s := by
      refine hf.noValue ([], kvs) List.mem_cons_self (keyPath F, v) ?_
      rw [assignsOf, List.mem_map]
      exact ⟨_, hF, rfl⟩
    have hd : named opened h ∉ dottedOf (([], kvs) : Spec.Path × List (AstKeyValue σ)) := by
      have := hf.noDotted ([], kvs) List.mem_cons_self
      rwa [hh] at this
    have hns : named opened h <+: sectionPath opened s := by
      have := named_section opened s
      rwa [hh] at this
    have ha : Apart h F := by
      refine ⟨fun hp => ?_, fun hp => ?_⟩
      · by_cases hq : h = F
        · subst hq
          exact hv (by rw [← named_along hu hhn hp]; exact hns)
        · exact hd (by rw [named_along hu hhn hp]; exact dotted_mem hF hhn hp hq)
      · by_cases hq : F = h
        · subst hq
          exact hv (by rw [← named_along hu hhn (List.prefix_refl _)]; exact hns)
        · obtain ⟨t, rfl⟩ := hp
          have ht : t ≠ [] := by rintro rfl; simp at hq
          refine hv (List.IsPrefix.trans ?_ hns)
          rw [named, List.getLast?_eq_some_getLast hhn]
          simp only
          refine List.IsPrefix.trans ?_ (List.prefix_append _ _)
          rw [List.dropLast_append_of_ne_nil ht, resolve_append]
          have := resolve_along hu F [] (by simp)
          rw [show (keyPath [] : Spec.Path) = [] from rfl, List.nil_append] at this
          rw [this]
          exact resolve_grows _ _ _
    rcases List.mem_cons.1 hs' with rfl | hs'
    · exact ⟨h, hh, hhn, ha⟩
    · refine sections_apart hF hne ss _ _ ?_ hrest s' hs'
      intro g hg hgn hm
      rw [openedAfter] at hm
      split at hm
      · rcases List.mem_append.1 hm with hm | hm
        · exact hu g hg hgn hm
        · rw [List.mem_singleton, hh] at hm
          have := congrArg keysOf hm
          rw [keysOf_keyPath, Option.getD_some, keysOf_named opened hhn] at this
          subst this
          exact ha.1 hg
      · exact hu g hg hgn hm

/-! ### the other table may follow, too -/

theorem follows_other {kvs kvs' : List (AstKeyValue σ)} : (ss : List (AstSection σ)) → (rest : List (Spec.Path × List (AstKeyValue σ))) →
    (opened : List Spec.Path) →
    (∀ s ∈ ss, ∀ opened : List Spec.Path, (∃ h, s.header = some h ∧ h ≠ []) →
      (∀ a ∈ assignsOf (([], kvs) : Spec.Path × List (AstKeyValue σ)), ¬ a.1 <+: sectionPath opened s) →
      named opened (s.header.getD []) ∉ dottedOf (([], kvs) : Spec.Path × List (AstKeyValue σ)) →
      (∀ a ∈ assignsOf (([], kvs') : Spec.Path × List (AstKeyValue σ)), ¬ a.1 <+: sectionPath opened s) ∧
      named opened (s.header.getD []) ∉ dottedOf (([], kvs') : Spec.Path × List (AstKeyValue σ))) →
    AllFollow (([], kvs) :: rest) opened ss → AllFollow (([], kvs') :: rest) opened ss
  | [], _, _, _, _ => by rw [AllFollow]; trivial
  | s :: ss, rest, opened, hk, hf => by
    rw [AllFollow] at hf ⊢
    obtain ⟨hf, hrest⟩ := hf
    have h2 := hk s List.mem_cons_self opened hf.header (hf.noValue _ List.mem_cons_self) (hf.noDotted _ List.mem_cons_self)
    refine ⟨⟨hf.header, hf.kvs, ?_, hf.noArray, ?_, ?_, ?_, ?_⟩, follows_other ss _ _ (fun s h => hk s (List.mem_cons_of_mem _ h)) hrest⟩
    · intro ha B hB
      rcases List.mem_cons.1 hB with rfl | hB
      · exact hf.once ha ([], kvs) List.mem_cons_self
      · exact hf.once ha B (List.mem_cons_of_mem _ hB)
    · intro ha hn B hB
      rcases List.mem_cons.1 hB with rfl | hB
      · exact hf.noTable ha hn ([], kvs) List.mem_cons_self
      · exact hf.noTable ha hn B (List.mem_cons_of_mem _ hB)
    · intro B hB
      rcases List.mem_cons.1 hB with rfl | hB
      · exact h2.1
      · exact hf.noValue B (List.mem_cons_of_mem _ hB)
    · intro B hB
      rcases List.mem_cons.1 hB with rfl | hB
      · exact h2.2
      · exact hf.noDotted B (List.mem_cons_of_mem _ hB)
    · intro B hB
      rcases List.mem_cons.1 hB with rfl | hB
      · exact hf.keys ([], kvs) List.mem_cons_self
      · exact hf.keys B (List.mem_cons_of_mem _ hB)

theorem mem_assigns {kvs : List (AstKeyValue σ)} {a : Spec.Path × AstValue σ} :
    a ∈ assignsOf (([], kvs) : Spec.Path × List (AstKeyValue σ)) ↔ ∃ kv ∈ kvAssigns kvs, a = (keyPath kv.1, kv.2) := by
  rw [assignsOf, List.mem_map]
  exact ⟨fun ⟨kv, h, e⟩ => ⟨kv, h, e.symm⟩, fun ⟨kv, h, e⟩ => ⟨kv, h, e.symm⟩⟩

theorem mem_dotted {kvs : List (AstKeyValue σ)} {p : Spec.Path} :
    p ∈ dottedOf (([], kvs) : Spec.Path × List (AstKeyValue σ)) ↔
      ∃ kv ∈ kvAssigns kvs, ∃ g t, g ≠ [] ∧ t ≠ [] ∧ kv.1 = g ++ t ∧ p = keyPath g := by
  rw [dottedOf, List.mem_flatMap]
  constructor
  · rintro ⟨kv, hkv, h⟩
    obtain ⟨i, hi, rfl⟩ := List.mem_map.1 h
    rw [List.mem_range] at hi
    refine ⟨kv, hkv, kv.1.take (i + 1), kv.1.drop (i + 1), ?_, ?_, (List.take_append_drop _ _).symm, rfl⟩
    · intro h'
      have := congrArg List.length h'
      rw [List.length_take, List.length_nil] at this
      omega
    · intro h'
      have := congrArg List.length h'
      simp at this
      omega
  · rintro ⟨kv, hkv, g, t, hg, ht, he, rfl⟩
    refine ⟨kv, hkv, List.mem_map.2 ⟨g.length - 1, ?_, ?_⟩⟩
    · have := List.length_pos_iff.2 hg
      have := List.length_pos_iff.2 ht
      rw [he]
      simp; omega
    · have := List.length_pos_iff.2 hg
      rw [Nat.sub_add_cancel this, he]
      simp

/-- **To an inline table.** -/
theorem valid_inlined {kvs1 kvs2 : List (AstKeyValue σ)} {ss : List (AstSection σ)} {K M : List DKey} {v : AstValue σ} (hK : K ≠ []) (hM : M ≠ [])
    (hv : Valid (⟨kvs1 ++ dotted K M v :: kvs2, ss⟩ : AstRoot σ)) (ho : ∀ a ∈ kvAssigns (kvs1 ++ kvs2), ¬ K <+: a.1)
    (hs : ∀ s ∈ ss, ∀ h, s.header = some h → ¬ K <+: h) : Valid (⟨kvs1 ++ inlined K M v :: kvs2, ss⟩ : AstRoot σ) := by
  obtain ⟨h1, h2, h3⟩ := hv
  simp only at h1 h2 h3
  rw [validKvs_append, ValidKvs, dotted, ValidKv] at h1
  rw [KeysApart, kvAssigns_append, kvAssigns_dotted, List.pairwise_append, List.pairwise_cons] at h2
  rw [kvAssigns_append] at ho
  refine ⟨?_, ?_, ?_⟩
  · simp only
    rw [validKvs_append, ValidKvs, inlined, ValidKv, ValidValue, ValidKvs, ValidKv, ValidKvs, KeysApart]
    refine ⟨h1.1, ⟨hK, ⟨⟨hM, h1.2.1.2⟩, trivial⟩, ?_⟩, h1.2.2⟩
    exact List.pairwise_singleton _ _
  · simp only
    rw [KeysApart, kvAssigns_append, kvAssigns_inlined, List.pairwise_append, List.pairwise_cons]
    refine ⟨h2.1, ⟨fun a ha => ⟨ho a (List.mem_append_right _ ha), fun hp => (h2.2.1.1 a ha).2 (hp.trans (List.prefix_append _ _))⟩, h2.2.1.2⟩, ?_⟩
    intro a ha b hb
    rcases List.mem_cons.1 hb with rfl | hb
    · exact ⟨fun hp => (h2.2.2 a ha _ List.mem_cons_self).1 (hp.trans (List.prefix_append _ _)), ho a (List.mem_append_left _ ha)⟩
    · exact h2.2.2 a ha b (List.mem_cons_of_mem _ hb)
  · refine follows_other ss [] [] (fun s hm opened hh hval hdot => ⟨fun a ha => ?_, fun hd => ?_⟩) h3
    · obtain ⟨kv, hkv, rfl⟩ := mem_assigns.1 ha
      rw [kvAssigns_append, kvAssigns_inlined, List.mem_append, List.mem_cons] at hkv
      rcases hkv with hkv | rfl | hkv
      · exact hval _ (mem_assigns.2 ⟨kv, by rw [kvAssigns_append]; exact List.mem_append_left _ hkv, rfl⟩)
      · obtain ⟨h, hh, hhn⟩ := hh
        exact fun hp => hs s hm h hh (section_prefix hh hhn hp)
      · exact hval _ (mem_assigns.2 ⟨kv, by rw [kvAssigns_append]; exact List.mem_append_right _ (List.mem_cons_of_mem _ hkv), rfl⟩)
    · obtain ⟨kv, hkv, g, t, hg, ht, he, hp⟩ := mem_dotted.1 hd
      rw [kvAssigns_append, kvAssigns_inlined, List.mem_append, List.mem_cons] at hkv
      rcases hkv with hkv | rfl | hkv
      · exact hdot (mem_dotted.2 ⟨kv, by rw [kvAssigns_append]; exact List.mem_append_left _ hkv, g, t, hg, ht, he, hp⟩)
      · refine hdot (mem_dotted.2 ⟨(K ++ M, v), by rw [kvAssigns_append]; exact List.mem_append_right _ List.mem_cons_self, g, t ++ M, hg,
          by simp [ht], ?_, hp⟩)
        rw [← List.append_assoc, ← he]
      · exact hdot (mem_dotted.2 ⟨kv, by rw [kvAssigns_append]; exact List.mem_append_right _ (List.mem_cons_of_mem _ hkv), g, t, hg, ht, he, hp⟩)

/-- **To dotted keys.** -/
theorem valid_dotted {kvs1 kvs2 : List (AstKeyValue σ)} {ss : List (AstSection σ)} {K M : List DKey} {v : AstValue σ} (hM : M ≠ [])
    (hv : Valid (⟨kvs1 ++ inlined K M v :: kvs2, ss⟩ : AstRoot σ)) : Valid (⟨kvs1 ++ dotted K M v :: kvs2, ss⟩ : AstRoot σ) := by
  obtain ⟨h1, h2, h3⟩ := hv
  simp only at h1 h2 h3
  rw [validKvs_append, ValidKvs, inlined, ValidKv, ValidValue, ValidKvs, ValidKv] at h1
  rw [KeysApart, kvAssigns_append, kvAssigns_inlined, List.pairwise_append, List.pairwise_cons] at h2
  have hpre : ∀ {a : List DKey}, a <+: K ++ M → a <+: K ∨ K <+: a := fun {a} h =>
    List.prefix_or_prefix_of_prefix h (List.prefix_append K M)
  refine ⟨?_, ?_, ?_⟩
  · simp only
    rw [validKvs_append, ValidKvs, dotted, ValidKv]
    exact ⟨h1.1, ⟨by simp [hM], h1.2.1.2.1.1.2⟩, h1.2.2⟩
  · simp only
    rw [KeysApart, kvAssigns_append, kvAssigns_dotted, List.pairwise_append, List.pairwise_cons]
    refine ⟨h2.1, ⟨fun a ha => ⟨fun hp => (h2.2.1.1 a ha).1 ((List.prefix_append _ _).trans hp), fun hp => ?_⟩, h2.2.1.2⟩, ?_⟩
    · rcases hpre hp with h | h
      · exact (h2.2.1.1 a ha).2 h
      · exact (h2.2.1.1 a ha).1 h
    · intro a ha b hb
      rcases List.mem_cons.1 hb with rfl | hb
      · have := h2.2.2 a ha _ List.mem_cons_self
        refine ⟨fun hp => ?_, fun hp => this.2 ((List.prefix_append _ _).trans hp)⟩
        rcases hpre hp with h | h
        · exact this.1 h
        · exact this.2 h
      · exact h2.2.2 a ha b (List.mem_cons_of_mem _ hb)
  · refine follows_other ss [] [] (fun s hm opened hh hval hdot => ⟨fun a ha => ?_, fun hd => ?_⟩) h3
    · obtain ⟨kv, hkv, rfl⟩ := mem_assigns.1 ha
      rw [kvAssigns_append, kvAssigns_dotted, List.mem_append, List.mem_cons] at hkv
      rcases hkv with hkv | rfl | hkv
      · exact hval _ (mem_assigns.2 ⟨kv, by rw [kvAssigns_append]; exact List.mem_append_left _ hkv, rfl⟩)
      · have := hval _ (mem_assigns.2 ⟨(K, _), by rw [kvAssigns_append, kvAssigns_inlined]; exact List.mem_append_right _ List.mem_cons_self, rfl⟩)
        exact fun hp => this ((keyPath_prefix (List.prefix_append _ _)).trans hp)
      · exact hval _ (mem_assigns.2 ⟨kv, by rw [kvAssigns_append]; exact List.mem_append_right _ (List.mem_cons_of_mem _ hkv), rfl⟩)
    · obtain ⟨kv, hkv, g, t, hg, ht, he, hp⟩ := mem_dotted.1 hd
      rw [kvAssigns_append, kvAssigns_dotted, List.mem_append, List.mem_cons] at hkv
      rcases hkv with hkv | rfl | hkv
      · exact hdot (mem_dotted.2 ⟨kv, by rw [kvAssigns_append]; exact List.mem_append_left _ hkv, g, t, hg, ht, he, hp⟩)
      · have he : K ++ M = g ++ t := he
        have hgp : g <+: K ++ M := by rw [he]; exact List.prefix_append _ _
        by_cases hKg : K <+: g
        · have := hval _ (mem_assigns.2 ⟨(K, _), by rw [kvAssigns_append, kvAssigns_inlined]; exact List.mem_append_right _ List.mem_cons_self, rfl⟩)
          refine this (List.IsPrefix.trans (keyPath_prefix hKg) ?_)
          rw [← hp]
          exact named_section opened s
        · rcases hpre hgp with ⟨u, hu⟩ | h
          · refine hdot (mem_dotted.2 ⟨(K, _), by rw [kvAssigns_append, kvAssigns_inlined]; exact List.mem_append_right _ List.mem_cons_self,
              g, u, hg, ?_, hu.symm, hp⟩)
            rintro rfl
            exact hKg (by rw [← hu]; simp)
          · exact hKg h
      · exact hdot (mem_dotted.2 ⟨kv, by rw [kvAssigns_append]; exact List.mem_append_right _ (List.mem_cons_of_mem _ hkv), g, t, hg, ht, he, hp⟩)

end Tombi.Refactor
