import Verif.Proofs.SortedValid
import Verif.Props.KeysOrder
/-! Documents with key-values in another order: they denote the same, and are valid together. -/
namespace Tombi
open Spec

variable {σ : Type}

/-- The value `b` denotes what `a` does, and is valid if `a` is. -/
structure SameValue (a b : AstValue σ) : Prop where
  nodes : ∀ x, x ∈ valueNodes a ↔ x ∈ valueNodes b
  valid : ValidValue a → ValidValue b

theorem SameValue.refl (a : AstValue σ) : SameValue a a := ⟨fun _ => Iff.rfl, id⟩

/-- Key-values in another order, with other values that denote the same. -/
inductive SameKvs : List (AstKeyValue σ) → List (AstKeyValue σ) → Prop where
  | refl (l : List (AstKeyValue σ)) : SameKvs l l
  | trans {a b c : List (AstKeyValue σ)} : SameKvs a b → SameKvs b c → SameKvs a c
  | swap (x y : AstKeyValue σ) (l : List (AstKeyValue σ)) : SameKvs (x :: y :: l) (y :: x :: l)
  | cons (x : AstKeyValue σ) {l l' : List (AstKeyValue σ)} : SameKvs l l' → SameKvs (x :: l) (x :: l')
  | head (ks : List DKey) {a b : AstValue σ} (l : List (AstKeyValue σ)) : SameValue a b →
      SameKvs (.mk (some ks) (some a) :: l) (.mk (some ks) (some b) :: l)

/-- Elements of an array with values that denote the same. -/
inductive SameItems : List (AstItem σ) → List (AstItem σ) → Prop where
  | refl (l : List (AstItem σ)) : SameItems l l
  | trans {a b c : List (AstItem σ)} : SameItems a b → SameItems b c → SameItems a c
  | cons (x : AstItem σ) {l l' : List (AstItem σ)} : SameItems l l' → SameItems (x :: l) (x :: l')
  | head {a b : AstValue σ} (l : List (AstItem σ)) : SameValue a b → SameItems (.value a :: l) (.value b :: l)

theorem below_same {a b : List (Path × Node σ)} (h : ∀ x, x ∈ a ↔ x ∈ b) (p : Path) (x : Path × Node σ) : x ∈ below p a ↔ x ∈ below p b := by
  unfold below
  simp only [List.mem_map, h]

theorem assign_same {a b : List (Path × Node σ)} (h : ∀ x, x ∈ a ↔ x ∈ b) (ks : List DKey) :
    ∀ x, x ∈ assignNodes a ks ↔ x ∈ assignNodes b ks := by
  induction ks with
  | nil => intro x; rfl
  | cons k ks ih =>
    intro x
    cases ks with
    | nil => exact below_same h _ x
    | cons k' ks =>
      have e : ∀ c : List (Path × Node σ), assignNodes c (k :: k' :: ks) = ([.key k], .table) :: below [.key k] (assignNodes c (k' :: ks)) := fun c => by
        rw [assignNodes.eq_def]
      rw [e, e, List.mem_cons, List.mem_cons, below_same ih]

theorem SameItems.nodes {l l' : List (AstItem σ)} (h : SameItems l l') : ∀ i x, x ∈ itemsNodes i l ↔ x ∈ itemsNodes i l' := by
  induction h with
  | refl => exact fun _ _ => Iff.rfl
  | trans _ _ ih1 ih2 => exact fun i x => (ih1 i x).trans (ih2 i x)
  | cons y _ ih => intro i x; rw [itemsNodes, itemsNodes, List.mem_append, List.mem_append, ih]
  | head l h =>
    intro i x
    rw [itemsNodes, itemsNodes, List.mem_append, List.mem_append, itemNodes, itemNodes, below_same h.nodes]

theorem SameItems.valid {l l' : List (AstItem σ)} (h : SameItems l l') : ValidItems l → ValidItems l' := by
  induction h with
  | refl => exact id
  | trans _ _ ih1 ih2 => exact fun h => ih2 (ih1 h)
  | cons y _ ih => rw [ValidItems, ValidItems]; exact fun h => ⟨h.1, ih h.2⟩
  | head l h => rw [ValidItems, ValidItems, ValidItem, ValidItem]; exact fun h' => ⟨h.valid h'.1, h'.2⟩

theorem SameItems.array {l l' : List (AstItem σ)} (h : SameItems l l') : SameValue (.array l) (.array l') :=
  ⟨fun x => by rw [valueNodes, valueNodes, List.mem_cons, List.mem_cons, h.nodes], fun hv => by
    rw [ValidValue] at hv ⊢; exact h.valid hv⟩

theorem SameKvs.nodes {l l' : List (AstKeyValue σ)} (h : SameKvs l l') : ∀ x, x ∈ kvsNodes l ↔ x ∈ kvsNodes l' := by
  induction h with
  | refl => exact fun _ => Iff.rfl
  | trans _ _ ih1 ih2 => exact fun x => (ih1 x).trans (ih2 x)
  | swap a b l =>
    intro x
    simp only [kvsNodes, List.mem_append]
    exact ⟨fun h => h.elim (fun h => .inr (.inl h)) (fun h => h.elim .inl fun h => .inr (.inr h)),
      fun h => h.elim (fun h => .inr (.inl h)) (fun h => h.elim .inl fun h => .inr (.inr h))⟩
  | cons y _ ih => intro x; rw [kvsNodes, kvsNodes, List.mem_append, List.mem_append, ih]
  | head ks l h =>
    intro x
    rw [kvsNodes, kvsNodes, List.mem_append, List.mem_append, kvNodes, kvNodes, assign_same h.nodes]

theorem SameKvs.valid {l l' : List (AstKeyValue σ)} (h : SameKvs l l') : ValidKvs l → ValidKvs l' := by
  induction h with
  | refl => exact id
  | trans _ _ ih1 ih2 => exact fun h => ih2 (ih1 h)
  | swap a b l => simp only [ValidKvs]; exact fun h => ⟨h.2.1, h.1, h.2.2⟩
  | cons y _ ih => rw [ValidKvs, ValidKvs]; exact fun h => ⟨h.1, ih h.2⟩
  | head ks l h => rw [ValidKvs, ValidKvs, ValidKv, ValidKv]; exact fun h' => ⟨⟨h'.1.1, h.valid h'.1.2⟩, h'.2⟩

/-- The keys are the same. -/
theorem SameKvs.keys {l l' : List (AstKeyValue σ)} (h : SameKvs l l') : ((kvAssigns l).map (·.1)).Perm ((kvAssigns l').map (·.1)) := by
  have hc : ∀ (y : AstKeyValue σ) (l : List (AstKeyValue σ)), (kvAssigns (y :: l)).map (·.1) = (kvAssigns [y]).map (·.1) ++ (kvAssigns l).map (·.1) := by
    intro y l
    unfold kvAssigns
    rw [← List.map_append, ← List.filterMap_append, List.singleton_append]
  induction h with
  | refl => exact .refl _
  | trans _ _ ih1 ih2 => exact ih1.trans ih2
  | swap a b l =>
    rw [hc a (b :: l), hc b l, hc b (a :: l), hc a l, ← List.append_assoc, ← List.append_assoc]
    exact List.perm_append_comm.append_right _
  | @cons y l l' _ ih => rw [hc y l, hc y l']; exact ih.append_left _
  | head ks l h => exact .refl _

theorem SameKvs.apart {l l' : List (AstKeyValue σ)} (h : SameKvs l l') : KeysApart l → KeysApart l' := by
  have e : ∀ l : List (AstKeyValue σ), KeysApart l ↔ ((kvAssigns l).map (·.1)).Pairwise fun a b => ¬ a <+: b ∧ ¬ b <+: a := by
    intro l
    unfold KeysApart
    rw [List.pairwise_map]
  rw [e, e]
  exact (h.keys.pairwise_iff fun {a b} h => ⟨h.2, h.1⟩).1

theorem SameKvs.table {l l' : List (AstKeyValue σ)} (h : SameKvs l l') : SameValue (.inlineTable l) (.inlineTable l') :=
  ⟨fun x => by rw [valueNodes, valueNodes, List.mem_cons, List.mem_cons, h.nodes], fun hv => by
    rw [ValidValue] at hv ⊢; exact ⟨h.valid hv.1, h.apart hv.2⟩⟩

theorem SameKvs.key {l l' : List (AstKeyValue σ)} (h : SameKvs l l') {a : List DKey × AstValue σ} (ha : a ∈ kvAssigns l') :
    ∃ b ∈ kvAssigns l, b.1 = a.1 := by
  have := h.keys.mem_iff.2 (List.mem_map_of_mem (f := (·.1)) ha)
  obtain ⟨b, hb, e⟩ := List.mem_map.1 this
  exact ⟨b, hb, e⟩

/-! ### sections -/

/-- A section with the same header. -/
structure SameSection (s s' : AstSection σ) : Prop where
  isArray : s.isArray = s'.isArray
  header : s.header = s'.header
  kvs : SameKvs s.kvs s'.kvs

/-- Sections with the same headers. -/
inductive SameSections : List (AstSection σ) → List (AstSection σ) → Prop where
  | nil : SameSections [] []
  | cons {s s' : AstSection σ} {ss ss' : List (AstSection σ)} : SameSection s s' → SameSections ss ss' → SameSections (s :: ss) (s' :: ss')

theorem SameSection.named {s s' : AstSection σ} (h : SameSection s s') (opened : List Path) :
    named opened (s.header.getD []) = named opened (s'.header.getD []) := by rw [h.header]

theorem SameSection.path {s s' : AstSection σ} (h : SameSection s s') (opened : List Path) : sectionPath opened s = sectionPath opened s' := by
  unfold sectionPath; rw [h.header, h.isArray]

theorem SameSection.after {s s' : AstSection σ} (h : SameSection s s') (opened : List Path) : openedAfter opened s = openedAfter opened s' := by
  unfold openedAfter; rw [h.header, h.isArray]

theorem SameSections.nodes {ss ss' : List (AstSection σ)} (h : SameSections ss ss') :
    ∀ opened x, x ∈ sectionsNodes opened ss ↔ x ∈ sectionsNodes opened ss' := by
  induction h with
  | nil => exact fun _ _ => Iff.rfl
  | cons h _ ih =>
    intro opened x
    rw [sectionsNodes, sectionsNodes, List.mem_append, List.mem_append, List.mem_append, List.mem_append, h.path, h.after, ih,
      below_same h.kvs.nodes]

/-- All keys of `l'` are keys of `l`. -/
def KeysOf (l l' : List (AstKeyValue σ)) : Prop := ∀ a ∈ kvAssigns l', ∃ b ∈ kvAssigns l, b.1 = a.1

theorem SameKvs.keysOf {l l' : List (AstKeyValue σ)} (h : SameKvs l l') : KeysOf l l' := fun _ ha => h.key ha

theorem assigns_same {p : Path} {l l' : List (AstKeyValue σ)} (h : KeysOf l l') {a : Path × AstValue σ} (ha : a ∈ assignsOf (p, l')) :
    ∃ b ∈ assignsOf (p, l), b.1 = a.1 := by
  unfold assignsOf at ha ⊢
  obtain ⟨kv, hkv, rfl⟩ := List.mem_map.1 ha
  obtain ⟨b, hb, e⟩ := h _ hkv
  exact ⟨_, List.mem_map_of_mem hb, by simp only [e]⟩

theorem dotted_same {p : Path} {l l' : List (AstKeyValue σ)} (h : KeysOf l l') {d : Path} (hd : d ∈ dottedOf (p, l')) : d ∈ dottedOf (p, l) := by
  unfold dottedOf at hd ⊢
  obtain ⟨kv, hkv, hd⟩ := List.mem_flatMap.1 hd
  obtain ⟨b, hb, e⟩ := h _ hkv
  refine List.mem_flatMap.2 ⟨b, hb, ?_⟩
  rw [e]
  exact hd

theorem follows_same {done done' : List (Path × List (AstKeyValue σ))} {opened : List Path} {s s' : AstSection σ}
    (hd : ∀ B' ∈ done', ∃ B ∈ done, B.1 = B'.1 ∧ KeysOf B.2 B'.2) (hs : SameSection s s') (h : Follows done opened s) : Follows done' opened s' := by
  have e1 := hs.path opened
  have e2 := hs.named opened
  refine ⟨hs.header ▸ h.header, ⟨hs.kvs.valid h.kvs.1, hs.kvs.apart h.kvs.2⟩, ?_, ?_, ?_, ?_, ?_, ?_⟩
  · intro ha B' hB'
    obtain ⟨B, hB, e, -⟩ := hd B' hB'
    rw [← e, ← e1]
    exact h.once (hs.isArray.trans ha) B hB
  · intro ha
    rw [← e1]
    exact h.noArray (hs.isArray.trans ha)
  · intro ha hn B' hB'
    obtain ⟨B, hB, e, -⟩ := hd B' hB'
    rw [← e2] at hn ⊢
    rw [← e]
    exact h.noTable (hs.isArray.trans ha) hn B hB
  · intro B' hB' a ha
    obtain ⟨⟨p, l⟩, hB, e, hk⟩ := hd B' hB'
    obtain ⟨p', l'⟩ := B'
    simp only at e hk
    subst e
    obtain ⟨b, hb, eb⟩ := assigns_same hk ha
    rw [← e1, ← eb]
    exact h.noValue _ hB b hb
  · intro B' hB' hm
    obtain ⟨⟨p, l⟩, hB, e, hk⟩ := hd B' hB'
    obtain ⟨p', l'⟩ := B'
    simp only at e hk
    subst e
    rw [← e2] at hm
    exact h.noDotted _ hB (dotted_same hk hm)
  · intro B' hB' a ha k ks hk
    obtain ⟨B, hB, e, -⟩ := hd B' hB'
    obtain ⟨b, hb, eb⟩ := hs.kvs.key ha
    rw [← e, ← e1]
    exact h.keys B hB b hb k ks (eb.trans hk)

theorem SameSections.follow {ss ss' : List (AstSection σ)} (h : SameSections ss ss') :
    ∀ {done done' : List (Path × List (AstKeyValue σ))} {opened : List Path},
      (∀ B' ∈ done', ∃ B ∈ done, B.1 = B'.1 ∧ KeysOf B.2 B'.2) → AllFollow done opened ss → AllFollow done' opened ss' := by
  induction h with
  | nil => exact fun _ _ => trivial
  | cons h _ ih =>
    intro done done' opened hd hf
    rw [AllFollow] at hf ⊢
    refine ⟨follows_same hd h hf.1, ?_⟩
    rw [← h.path, ← h.after]
    refine ih (fun B' hB' => ?_) hf.2
    rcases List.mem_append.1 hB' with hB' | hB'
    · obtain ⟨B, hB, e⟩ := hd B' hB'
      exact ⟨B, List.mem_append_left _ hB, e⟩
    · rw [List.mem_singleton.1 hB']
      exact ⟨_, List.mem_append_right _ (List.mem_singleton.2 rfl), rfl, h.kvs.keysOf⟩

/-- The document with the sections and key-values of another one that is valid. -/
theorem same_valid {kvs kvs' : List (AstKeyValue σ)} {ss ss' : List (AstSection σ)} (hk : SameKvs kvs kvs') (hs : SameSections ss ss')
    (h : Valid ⟨kvs, ss⟩) : Valid ⟨kvs', ss'⟩ := by
  obtain ⟨h1, h2, h3⟩ := h
  refine ⟨hk.valid h1, hk.apart h2, hs.follow (fun B' hB' => ?_) h3⟩
  rw [List.mem_singleton.1 hB']
  exact ⟨_, List.mem_singleton.2 rfl, rfl, hk.keysOf⟩

theorem same_nodes {kvs kvs' : List (AstKeyValue σ)} {ss ss' : List (AstSection σ)} (hk : SameKvs kvs kvs') (hs : SameSections ss ss')
    (x : Path × Node σ) : x ∈ docNodes ⟨kvs, ss⟩ ↔ x ∈ docNodes ⟨kvs', ss'⟩ := by
  unfold docNodes
  rw [List.mem_append, List.mem_append, List.mem_cons, List.mem_cons, hk.nodes, hs.nodes]

/-! ### what only depends on headers -/

/-- The headers of sections. -/
def heads (ss : List (AstSection σ)) : List (Bool × Option (List DKey)) := ss.map fun s => (s.isArray, s.header)

theorem SameSections.heads {ss ss' : List (AstSection σ)} (h : SameSections ss ss') : heads ss' = heads ss := by
  induction h with
  | nil => rfl
  | cons h _ ih => unfold Tombi.heads at ih ⊢; rw [List.map_cons, List.map_cons, ih, h.isArray, h.header]

theorem heads_mem {ss ss' : List (AstSection σ)} (h : heads ss' = heads ss) {s : AstSection σ} (hs : s ∈ ss') :
    ∃ t ∈ ss, t.isArray = s.isArray ∧ t.header = s.header := by
  have : (s.isArray, s.header) ∈ heads ss' := List.mem_map_of_mem hs
  rw [h] at this
  obtain ⟨t, ht, e⟩ := List.mem_map.1 this
  exact ⟨t, ht, (Prod.mk.inj e).1, (Prod.mk.inj e).2⟩

theorem flat_heads {ss ss' : List (AstSection σ)} (h : heads ss' = heads ss) (hf : Flat ss) : Flat ss' := by
  intro s hs s' hs' ha n n' hn hn' hp
  obtain ⟨t, ht, e1, e2⟩ := heads_mem h hs
  obtain ⟨t', ht', e1', e2'⟩ := heads_mem h hs'
  rw [← e1']
  exact hf t ht t' ht' (e1.trans ha) n n' (e2.trans hn) (e2'.trans hn') hp

theorem headers_heads {ss ss' : List (AstSection σ)} (h : heads ss' = heads ss) (hh : HasHeaders ss) : HasHeaders ss' := by
  intro s hs
  obtain ⟨t, ht, -, e2⟩ := heads_mem h hs
  rw [← e2]
  exact hh t ht

theorem near_heads {ss ss' : List (AstSection σ)} (h : heads ss' = heads ss) (hn : Near ss) : Near ss' := by
  rintro l s m s' r rfl ha n n' hs hs' hd x hx hxa hxh hxe
  unfold heads at h
  rw [List.map_append, List.map_cons, List.map_append, List.map_cons] at h
  obtain ⟨l1, l2, rfl, -, e2⟩ := List.map_eq_append_iff.1 h.symm
  obtain ⟨t, l3, rfl, et, e3⟩ := List.map_eq_cons_iff.1 e2
  obtain ⟨m1, l4, rfl, em, e4⟩ := List.map_eq_append_iff.1 e3
  obtain ⟨t', r1, rfl, et', -⟩ := List.map_eq_cons_iff.1 e4
  simp only [Prod.mk.injEq] at et et'
  have : (x.isArray, x.header) ∈ m1.map fun s => (s.isArray, s.header) := by rw [em]; exact List.mem_map_of_mem hx
  obtain ⟨y, hy, ey⟩ := List.mem_map.1 this
  simp only [Prod.mk.injEq] at ey
  exact hn l1 t m1 t' r1 rfl (et.1.trans ha) n n' (et.2.trans hs) (et'.2.trans hs') hd y hy (ey.1.trans hxa) hxh (ey.2.trans hxe)

/-! ### sorted sections -/

theorem SameSections.refl (ss : List (AstSection σ)) : SameSections ss ss := by
  induction ss with
  | nil => exact .nil
  | cons s ss ih => exact .cons ⟨rfl, rfl, .refl _⟩ ih

theorem SameSections.get {ss ss' : List (AstSection σ)} (h : SameSections ss ss') (i : Nat) :
    (ss[i]? = none ∧ ss'[i]? = none) ∨ ∃ s s', ss[i]? = some s ∧ ss'[i]? = some s' ∧ SameSection s s' := by
  induction h generalizing i with
  | nil => exact .inl ⟨rfl, rfl⟩
  | cons h _ ih =>
    cases i with
    | zero => exact .inr ⟨_, _, rfl, rfl, h⟩
    | succ i => simpa using ih i

theorem SameSections.pick {ss ss' : List (AstSection σ)} (h : SameSections ss ss') (rs : List Nat) :
    SameSections (rs.filterMap (ss[·]?)) (rs.filterMap (ss'[·]?)) := by
  induction rs with
  | nil => exact .nil
  | cons i rs ih =>
    rcases h.get i with ⟨h1, h2⟩ | ⟨s, s', h1, h2, h3⟩
    · rw [List.filterMap_cons_none h1, List.filterMap_cons_none h2]; exact ih
    · rw [List.filterMap_cons_some h1, List.filterMap_cons_some h2]; exact .cons h3 ih

/-- The sections of a valid document are a valid document. -/
theorem sections_valid {kvs : List (AstKeyValue σ)} {ss : List (AstSection σ)} (h : Valid ⟨kvs, ss⟩) : Valid ⟨[], ss⟩ := by
  refine ⟨trivial, List.Pairwise.nil, (SameSections.refl ss).follow (fun B' hB' => ?_) h.2.2⟩
  rw [List.mem_singleton.1 hB']
  exact ⟨_, List.mem_singleton.2 rfl, rfl, fun a ha => (nomatch ha)⟩

theorem near_accepted {kvs : List (AstKeyValue σ)} {ss : List (AstSection σ)} (h : Valid ⟨kvs, ss⟩) (hf : Flat ss) (hn : Near ss)
    (hh : HasHeaders ss) : Regular ⟨kvs, ss⟩ ∧ (AstRoot.tree ⟨kvs, ss⟩).2 = [] := by
  have hr : Regular ⟨kvs, ss⟩ := flat_regular [] ss hf hh
  exact ⟨hr, valid_accepted _ h hr (near_uninterrupted [] ss hf hn hh)⟩

theorem resolve_head (opened : List Path) (ks : List DKey) : ∀ s cur, (resolve opened (s :: cur) ks).head? = some s := by
  induction ks with
  | nil => intro s cur; rfl
  | cons k ks ih =>
    intro s cur
    rw [resolve]
    unfold enter
    split
    · exact ih ..
    · exact ih ..

theorem section_head (opened : List Path) {s : AstSection σ} {k : DKey} {ks : List DKey} (hs : s.header = some (k :: ks)) :
    (sectionPath opened s).head? = some (.key k) := by
  have hn : (named opened (k :: ks)).head? = some (.key k) := by
    unfold named
    cases ks with
    | nil => rfl
    | cons k' ks =>
      rw [List.getLast?_eq_some_getLast (by simp)]
      simp only [List.dropLast_cons_of_ne_nil (List.cons_ne_nil k' ks)]
      rw [resolve]
      have : ∃ r, enter opened ([] ++ [Spec.Step.key k]) = .key k :: r := by
        unfold enter
        split
        · exact ⟨_, rfl⟩
        · exact ⟨_, rfl⟩
      obtain ⟨r, e⟩ := this
      rw [e, List.head?_append, resolve_head]
      rfl
  unfold sectionPath
  simp only [hs, Option.getD_some]
  split
  · rw [List.head?_append, hn]; rfl
  · exact hn

theorem pathAt_head {ss : List (AstSection σ)} (hf : Flat ss) (hn : Near ss) (hh : HasHeaders ss) {i : Nat} {s : AstSection σ} {k : DKey}
    {ks : List DKey} (hi : ss[i]? = some s) (hs : s.header = some (k :: ks)) :
    (pathAt (sectionAccessors [] ss) i).head? = some (.key k) := by
  have h := pathAt_eq hf hn hh hi
  have := section_head (openedBy [] (ss.take i)) hs
  rw [← h, List.head?_map] at this
  cases hp : (pathAt (sectionAccessors [] ss) i).head? with
  | none => rw [hp] at this; cases this
  | some a =>
    rw [hp] at this
    cases a with
    | key k' => cases this; rfl
    | index i => cases this

/-- Sorted sections with the same first key stand together. -/
theorem sorted_near {ss : List (AstSection σ)} (hf : Flat ss) (hn : Near ss) (hh : HasHeaders ss) {rs : List Nat}
    (ht : Together (fun x => (pathAt (sectionAccessors [] ss) x).head?) rs) : Near (rs.filterMap (ss[·]?)) := by
  intro l s m s' r e ha n n' hs hs' hd x hx hxa hxh hxe
  obtain ⟨B, i, A, rfl, -, hi, e2⟩ := filterMap_split e
  obtain ⟨M, j, R, rfl, rfl, hj, -⟩ := filterMap_split e2
  obtain ⟨z, hz, ez⟩ := List.mem_filterMap.1 hx
  have hd1 : ∀ {i : Nat} {s : AstSection σ} {n : List DKey}, ss[i]? = some s → s.header = some n → 
      (pathAt (sectionAccessors [] ss) i).head? = n.head?.map .key := by
    intro i s n hi hs
    obtain ⟨k, ks, hk⟩ := hh s (List.mem_of_getElem? hi)
    rw [pathAt_head hf hn hh hi hk]
    rw [hk] at hs
    cases hs
    rfl
  have := ht B i M j R rfl (by simp only; rw [hd1 hi hs, hd1 hj hs', hd]) z hz
  simp only at this
  rw [hd1 ez hxe, hd1 hj hs'] at this
  cases h1 : hxh.head? <;> cases h2 : n'.head? <;> simp_all

/-- A document after sorting its sections, and its keys: it is accepted, and denotes the same. -/
theorem sorted_same {w : SchemaWorld S σ} {fuel : Nat} {schema : Option S} {order : Option KeysOrder} {kvs kvs' : List (AstKeyValue σ)}
    {ss ss' : List (AstSection σ)} {rs : List Nat} (hv : Valid ⟨kvs, ss⟩) (hf : Flat ss) (hn : Near ss) (hh : HasHeaders ss)
    (hb : schema = none ∨ ∀ s ∈ ss, ∀ header, s.header = some header → ∀ k ∈ header, TomlText.toKeyString k = k)
    (h : sortSections w fuel ss schema order = some rs) (hk : SameKvs kvs kvs') (hs : SameSections ss ss') :
    Valid ⟨kvs', rs.filterMap (ss'[·]?)⟩ ∧ Flat (rs.filterMap (ss'[·]?)) ∧ Near (rs.filterMap (ss'[·]?)) ∧
      HasHeaders (rs.filterMap (ss'[·]?)) ∧
      ∀ x, x ∈ docNodes ⟨kvs', rs.filterMap (ss'[·]?)⟩ ↔ x ∈ docNodes ⟨kvs, ss⟩ := by
  have he : (AstRoot.tree ⟨[], ss⟩).2 = [] := (near_accepted (sections_valid hv) hf hn hh).2
  have hperm : rs.Perm (List.range ss.length) := by
    rcases hb with rfl | hb
    · exact C30_no_schema_permuted w fuel ss order rs h
    · exact C30_sections_permuted_partial w fuel ss schema order rs hf hn hh hb he h
  have hbef : rs.Pairwise fun x y => Before (pathAt (sectionAccessors [] ss) x) (pathAt (sectionAccessors [] ss) y) := by
    refine (getSorted_before w _ fuel _ [] _ schema order rs [] h (fun t ht => pathAt_zipIdx ht) (targets_before hf hn hh)).imp ?_
    rintro x y ⟨p, q, h1, h2, h3, -⟩
    rw [h1, h2]
    exact h3
  have hpre := getSorted_prefix w (pathAt (sectionAccessors [] ss)) (· < ·) fuel _ [] _ schema order rs [] h (fun t ht => pathAt_zipIdx ht) (by
    rw [List.pairwise_iff_getElem]
    intro i j hi hj hij
    simpa using hij)
  have ht := getSorted_together w (pathAt (sectionAccessors [] ss)) fuel _ [] _ schema order rs h (fun t ht => pathAt_zipIdx ht)
  have hv1 := permuted_valid hv hf hn hh he hperm hbef hpre
  have hm : ∀ s ∈ rs.filterMap (ss[·]?), s ∈ ss := fun s hs => by
    obtain ⟨i, -, hi⟩ := List.mem_filterMap.1 hs
    exact List.mem_of_getElem? hi
  have hsame := hs.pick rs
  have hheads := hsame.heads
  refine ⟨same_valid hk hsame hv1, flat_heads hheads fun s hs s' hs' => hf s (hm s hs) s' (hm s' hs'),
    near_heads hheads (sorted_near hf hn hh ht), headers_heads hheads fun s hs => hh s (hm s hs), fun x => ?_⟩
  rw [← same_nodes hk hsame]
  unfold docNodes
  rw [List.mem_append, List.mem_append, sections_meaning hf hn hh he hperm hbef]

end Tombi
