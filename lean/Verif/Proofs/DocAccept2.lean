import Verif.Proofs.DocAccept

/-! Valid sections are merged without errors. -/
namespace Tombi
open Spec (Step Path child lookup keyPath kvAssigns assignsOf dottedOf enter resolve named sectionPath openedAfter Follows
  RegularFrom UninterruptedFrom AllFollow Valid Regular Uninterrupted)

variable {σ : Type}

/-! ### where the table of a section ends up -/

/-- On the way, the names marked as arrays of tables are the arrays of tables. -/
def FlagAt (arrays : List (List DKey)) (opened : List Path) (done : List DKey) (cur : Path) : List DKey → Prop
  | [] => True
  | k :: ks => (arrays.contains (done ++ [k]) = true ↔ 0 < opened.count (cur ++ [.key k])) ∧
      FlagAt arrays opened (done ++ [k]) (enter opened (cur ++ [.key k])) ks

theorem child_lookup (T : DValue σ) (cur : Path) (k : DKey) :
    (lookup T cur).bind (child · (.key k)) = lookup T (cur ++ [.key k]) := by
  rw [lookup_append]
  cases lookup T cur with
  | none => rfl
  | some w =>
    show child w (.key k) = lookup w [.key k]
    rw [lookup_cons]
    cases child w (.key k) <;> rfl

/-- The place of a section, when its header is marked rightly. -/
theorem spine_place {T b : DValue σ} {opened : List Path} (hI : CountInv T opened)
    (arrays : List (List DKey)) (isArray : Bool) (last : DKey) :
    ∀ (ks done : List DKey) (cur : Path), FlagAt arrays opened done cur ks →
      (isArray = true → ∀ w, lookup T (resolve opened cur ks ++ [.key last]) = some w → ∃ a vs, w = .array a vs ∧ a ≠ .array) →
      cur ++ embed (lookup T cur)
          (spineTree b (headerFlags arrays done ks ++ [(last, if isArray then some .arrayOfTable else none)]))
          (spinePath (headerFlags arrays done ks ++ [(last, if isArray then some .arrayOfTable else none)])) =
        if isArray then resolve opened cur ks ++ [.key last, .index (opened.count (resolve opened cur ks ++ [.key last]))]
        else resolve opened cur ks ++ [.key last] := by
  intro ks
  induction ks with
  | nil =>
    intro done cur _ hend
    rw [headerFlags, List.nil_append, resolve]
    rw [resolve] at hend
    cases isArray with
    | false =>
      simp only [Bool.false_eq_true, if_false]
      rw [spinePath, embed, spineTree, child_single, if_pos rfl, spinePath]
      simp [embed]
    | true =>
      simp only [if_true] at hend ⊢
      rw [spinePath, embed, spineTree, child_single, if_pos rfl, spinePath]
      simp only [spineTree]
      rw [child_lookup]
      obtain ⟨i1, i2⟩ := hI (cur ++ [.key last])
      cases hl : lookup T (cur ++ [.key last]) with
      | none =>
        rw [embed_none]
        have : opened.count (cur ++ [.key last]) = 0 := by
          rcases Nat.eq_zero_or_pos (opened.count (cur ++ [.key last])) with h | h
          · exact h
          · obtain ⟨a, _, ha⟩ := i1 h
            unfold kindAt at ha; rw [hl] at ha; cases ha
        rw [this]
      | some w =>
        obtain ⟨a, vs, rfl, ha⟩ := hend trivial w hl
        have hlen : vs.length = opened.count (cur ++ [.key last]) :=
          i2 a vs.length (by unfold kindAt; rw [hl]; rfl) ha
        rw [embed, if_neg (by simp), if_pos rfl, hlen]
        rfl
  | cons k ks ih =>
    intro done cur hflag hend
    obtain ⟨hf0, hflag⟩ := hflag
    rw [headerFlags, List.cons_append]
    rw [resolve] at hend ⊢
    obtain ⟨i1, i2⟩ := hI (cur ++ [.key k])
    have hih := ih (done ++ [k]) (enter opened (cur ++ [.key k])) hflag hend
    generalize hl : headerFlags arrays (done ++ [k]) ks ++ [(last, if isArray then some ArrayKind.arrayOfTable else none)] = l
      at *
    by_cases hc : arrays.contains (done ++ [k]) = true
    · rw [if_pos hc]
      have hpos := hf0.1 hc
      rw [enter_pos hpos] at hih ⊢
      obtain ⟨a, ha, hka⟩ := i1 hpos
      obtain ⟨vs, hvs, hlen⟩ := kindAt_array hka
      rw [spinePath, embed, spineTree, child_single, if_pos rfl]
      simp only
      rw [child_lookup, hvs, embed, if_pos rfl]
      simp only [List.getElem?_cons_zero]
      have hlast : vs.getLast? = lookup T (cur ++ [.key k] ++ [.index (opened.count (cur ++ [.key k]) - 1)]) := by
        rw [lookup_append, hvs]
        show _ = lookup (DValue.array a vs) [.index (opened.count (cur ++ [.key k]) - 1)]
        rw [lookup_cons, ← hlen]
        show _ = (vs[vs.length - 1]?).bind _
        rw [List.getLast?_eq_getElem?]
        cases vs[vs.length - 1]? <;> rfl
      rw [← hlast] at hih
      rw [← hih, hlen, Nat.add_zero]
      simp
    · rw [if_neg hc]
      have hz : opened.count (cur ++ [.key k]) = 0 := by
        rcases Nat.eq_zero_or_pos (opened.count (cur ++ [.key k])) with h | h
        · exact h
        · exact absurd (hf0.2 h) hc
      rw [enter_zero hz] at hih ⊢
      rw [spinePath, embed, spineTree, child_single, if_pos rfl]
      simp only
      rw [child_lookup, ← hih]
      simp

/-- The names of arrays of tables that the conversion looks at. -/
theorem mem_parentArrayKeys_of {prev between before : List (AstSection σ)} {s' : AstSection σ} {header name : List DKey}
    (hp : prev = between ++ s' :: before) (ha : s'.isArray = true) (hh : s'.header = some name) (hn : name ≠ [])
    (hpre : name <+: header)
    (hb : ∀ b ∈ between, b.isArray = true → ∀ keys, b.header = some keys → keys.head? = header.head?) :
    (parentArrayKeys prev header).contains name = true := by
  obtain ⟨rest, rfl⟩ := hpre
  cases name with
  | nil => exact absurd rfl hn
  | cons n0 name =>
    unfold parentArrayKeys
    rw [List.contains_iff_mem, List.mem_filter]
    refine ⟨?_, List.isPrefixOf_iff_prefix.2 (List.prefix_append _ _)⟩
    rw [hp, List.filterMap_append, List.filterMap_cons]
    simp only [ha, if_true, hh]
    rw [List.takeWhile_append_of_pos]
    · refine List.mem_append_right _ ?_
      rw [List.takeWhile_cons_of_pos]
      · exact List.mem_cons_self
      · simp
    · intro keys hk
      rw [List.mem_filterMap] at hk
      obtain ⟨b, hbm, hbk⟩ := hk
      split at hbk
      · rename_i hba
        have := hb b hbm hba keys hbk
        rw [this]
        simp
      · cases hbk

theorem flagAt_of {arrays : List (List DKey)} {opened : List Path} {header : List DKey}
    (h : ∀ name, name <+: header → name ≠ header → name ≠ [] → (arrays.contains name = true ↔ named opened name ∈ opened))
    (last : DKey) : ∀ (ks done : List DKey), header = done ++ ks ++ [last] →
    FlagAt arrays opened done (resolve opened [] done) ks := by
  intro ks
  induction ks with
  | nil => intro done _; exact trivial
  | cons k ks ih =>
    intro done he
    refine ⟨?_, ?_⟩
    · have := h (done ++ [k]) ⟨ks ++ [last], by rw [he]; simp⟩ (by
        rw [he]
        intro heq
        have := congrArg List.length heq
        simp at this) (by simp)
      rw [named_append] at this
      rw [this, List.count_pos_iff]
    · rw [← resolve_append]
      exact ih (done ++ [k]) (by rw [he]; simp)

/-! ### steps of places -/

theorem key_split {opened : List Path} {cur : Path} (hc : cur ∉ opened)
    (hcur : ∀ p k rest, cur = p ++ .key k :: rest → p ∉ opened) (k' : DKey) :
    ∀ p k rest, cur ++ [Step.key k'] = p ++ .key k :: rest → p ∉ opened := by
  intro p k rest he
  rcases List.eq_nil_or_concat rest with rfl | ⟨rest', x, rfl⟩
  · have := List.append_inj_left' he rfl
    rw [← this]; exact hc
  · rw [show p ++ Step.key k :: rest'.concat x = (p ++ .key k :: rest') ++ [x] from by simp] at he
    exact hcur p k rest' (List.append_inj_left' he rfl)

theorem index_split {opened : List Path} {cur : Path} {n : Nat}
    (hcur : ∀ p k rest, cur = p ++ .key k :: rest → p ∉ opened) :
    ∀ p k rest, cur ++ [Step.index n] = p ++ .key k :: rest → p ∉ opened := by
  intro p k rest he
  rcases List.eq_nil_or_concat rest with rfl | ⟨rest', x, rfl⟩
  · have := congrArg List.getLast? he
    simp at this
  · rw [show p ++ Step.key k :: rest'.concat x = (p ++ .key k :: rest') ++ [x] from by simp] at he
    exact hcur p k rest' (List.append_inj_left' he rfl)

/-- All arrays of tables have a name. -/
def EndInKey (opened : List Path) : Prop := ∀ p ∈ opened, ∃ q k, p = q ++ [Step.key k]

/-- A header does not go past an array of tables. -/
theorem resolve_key {opened : List Path} (hO : EndInKey opened) (ks : List DKey) : ∀ (cur : Path), cur ∉ opened →
    (∀ p k rest, cur = p ++ .key k :: rest → p ∉ opened) →
    resolve opened cur ks ∉ opened ∧ ∀ p k rest, resolve opened cur ks = p ++ .key k :: rest → p ∉ opened := by
  induction ks with
  | nil => intro cur h1 h2; exact ⟨h1, h2⟩
  | cons k' ks ih =>
    intro cur h1 h2
    rw [resolve]
    have h3 := key_split h1 h2 k'
    rcases Nat.eq_zero_or_pos (opened.count (cur ++ [.key k'])) with h | h
    · rw [enter_zero h]
      refine ih _ (fun hm => ?_) h3
      rw [List.count_eq_zero] at h
      exact h hm
    · rw [enter_pos h]
      refine ih _ (fun hm => ?_) (index_split h3)
      obtain ⟨q, k, hq⟩ := hO _ hm
      have := congrArg List.getLast? hq
      simp at this

/-! ### the invariant -/

/-- What may be at a place after the tables `done`. -/
inductive Known (done : List (Path × List (AstKeyValue σ))) (opened : List Path) : Path → DKind σ → Prop
  | root : Known done opened [] (.table .root)
  | value {B a p k} : B ∈ done → a ∈ assignsOf B → a.1 <+: p → Known done opened p k
  | dotted {B p kd} : B ∈ done → p ∈ dottedOf B → (kd = .parentKey ∨ kd = .keyValue) → Known done opened p (.table kd)
  | table {B} : B ∈ done → Known done opened B.1 (.table .table)
  | way {B p k rest} : B ∈ done → B.1 = p ++ .key k :: rest → Known done opened p (.table .parentTable)
  | array {B p a n} : B ∈ done → p <+: B.1 → p ∈ opened → a ≠ .array → Known done opened p (.array a n)

theorem Known.mono {done done' : List (Path × List (AstKeyValue σ))} {opened opened' : List Path} {p : Path} {k : DKind σ}
    (h : Known done opened p k) (hd : ∀ B ∈ done, B ∈ done') (ho : ∀ q ∈ opened, q ∈ opened') : Known done' opened' p k := by
  cases h with
  | root => exact .root
  | value h1 h2 h3 => exact .value (hd _ h1) h2 h3
  | dotted h1 h2 h3 => exact .dotted (hd _ h1) h2 h3
  | table h => exact .table (hd _ h)
  | way h1 h2 => exact .way (hd _ h1) h2
  | array h1 h2 h3 h4 => exact .array (hd _ h1) h2 (ho _ h3) h4

/-- The document after the tables `done`. -/
structure After (T : DValue σ) (done : List (Path × List (AstKeyValue σ))) (opened : List Path) : Prop where
  ok : Everywhere LocalOk T
  count : CountInv T opened
  ends : EndInKey opened
  known : ∀ p k, kindAt T p = some k → Known done opened p k
  there : ∀ B ∈ done, kindAt T B.1 ≠ none

theorem mem_dottedOf_of {B : Path × List (AstKeyValue σ)} {a : List DKey × AstValue σ} {ks1 ks2 : List DKey}
    (ha : a ∈ kvAssigns B.2) (h : a.1 = ks1 ++ ks2) (h1 : ks1 ≠ []) (h2 : ks2 ≠ []) : B.1 ++ keyPath ks1 ∈ dottedOf B := by
  unfold dottedOf
  rw [List.mem_flatMap]
  refine ⟨a, ha, ?_⟩
  rw [List.mem_map]
  have l1 := List.length_pos_iff.2 h1
  have l2 := List.length_pos_iff.2 h2
  refine ⟨ks1.length - 1, ?_, ?_⟩
  · rw [List.mem_range, h, List.length_append]; omega
  · rw [h, show ks1.length - 1 + 1 = ks1.length from by omega, List.take_left]

theorem keyPath_prefix_split {p : Path} {ks : List DKey} (h : p <+: keyPath ks) : ∃ ks1 ks2, ks = ks1 ++ ks2 ∧ p = keyPath ks1 := by
  obtain ⟨t, ht⟩ := h
  unfold keyPath at ht
  obtain ⟨l1, l2, h1, h2, h3⟩ := List.append_eq_map_iff.1 ht
  exact ⟨l1, l2, h1, h2.symm⟩

theorem prefix_cons_cases {r q a : Path} {s : Step} (h : a <+: r ++ s :: q) : a <+: r ∨ r ++ [s] <+: a := by
  rcases Nat.lt_or_ge r.length a.length with hl | hl
  · right
    refine List.prefix_of_prefix_length_le ?_ h (by simp; omega)
    exact ⟨q, by simp⟩
  · left
    exact List.prefix_of_prefix_length_le h (List.prefix_append _ _) hl

theorem merged_array {a a2 : ArrayKind} {n m : Nat} {k : DKind σ} (h : mergedKind (.array a n) (.array a2 m) = some k) :
    ∃ a n, k = .array a n ∧ a ≠ .array := by
  rw [mergedKind] at h
  by_cases hh : a ≠ .array ∧ a2 ≠ .array
  · rw [if_pos hh] at h; cases h; exact ⟨_, _, rfl, hh.1⟩
  · rw [if_neg hh] at h; cases h

theorem valid_keys {kvs : List (AstKeyValue σ)} (h : Spec.ValidKvs kvs) : ∀ a ∈ kvAssigns kvs, a.1 ≠ [] := by
  induction kvs with
  | nil => intro a ha; cases ha
  | cons kv rest ih =>
    rw [Spec.ValidKvs] at h
    intro a ha
    obtain ⟨-, ks, v, hkv, hks⟩ := kv_accepts kv h.1
    have hka : kvAssigns (kv :: rest) = (ks, v) :: kvAssigns rest := by rw [hkv]; rfl
    rw [hka] at ha
    rcases List.mem_cons.1 ha with rfl | ha
    · exact hks
    · exact ih h.2 a ha

section
variable {T : DTable σ} {done : List (Path × List (AstKeyValue σ))} {opened : List Path} {s : AstSection σ}
  {ks : List DKey} {last : DKey}

/-- The key-values of a section come to free places. -/
theorem body_free (hA : After T.value done opened) (hs : s.header = some (ks ++ [last])) (hF : Follows done opened s)
    {a : List DKey × AstValue σ} {k : DKey} {ks' : List DKey} (ha : a ∈ kvAssigns s.kvs) (hk : a.1 = k :: ks') (q : Path)
    (hrn : s.isArray = true → kindAt T.value (sectionPath opened s) = none) :
    kindAt T.value (sectionPath opened s ++ .key k :: q) = none := by
  cases hk1 : kindAt T.value (sectionPath opened s ++ .key k :: q) with
  | none => rfl
  | some k1 =>
    exfalso
    have hkeys : ∀ B ∈ done, ¬ sectionPath opened s ++ [.key k] <+: B.1 := fun B hB => hF.keys B hB a ha k ks' hk
    have hpre : sectionPath opened s ++ [.key k] <+: sectionPath opened s ++ .key k :: q := ⟨q, by simp⟩
    cases hb : s.isArray with
    | true =>
      obtain ⟨x, hx⟩ := kindAt_prefix hk1 (List.prefix_append _ _)
      rw [hrn hb] at hx; cases hx
    | false =>
      have hassign : ∀ B ∈ done, ∀ x ∈ assignsOf B, ¬ sectionPath opened s ++ [.key k] <+: x.1 := by
        intro B hB x hx hp
        obtain ⟨a', ha', rfl⟩ := mem_assignsOf.1 hx
        have hp' : sectionPath opened s ++ [.key k] <+: B.1 ++ keyPath a'.1 := hp
        have hr : sectionPath opened s <+: B.1 ++ keyPath a'.1 := (List.prefix_append _ _).trans hp'
        rcases List.prefix_or_prefix_of_prefix hr (List.prefix_append B.1 (keyPath a'.1)) with h | h
        · -- the section is above the table
          rcases List.prefix_or_prefix_of_prefix hp' (List.prefix_append B.1 (keyPath a'.1)) with h' | h'
          · exact hkeys B hB h'
          · obtain ⟨t, ht⟩ := h
            obtain ⟨t', ht'⟩ := h'
            have hlen := congrArg List.length ht
            have hlen' := congrArg List.length ht'
            simp only [List.length_append, List.length_cons, List.length_nil] at hlen hlen'
            rcases Nat.eq_zero_or_pos t.length with h0 | h0
            · have : t = [] := List.length_eq_zero_iff.1 h0
              subst this
              rw [List.append_nil] at ht
              exact hF.once hb B hB ht.symm
            · have : t' = [] := List.length_eq_zero_iff.1 (by omega)
              subst this
              rw [List.append_nil] at ht'
              exact hkeys B hB (by rw [ht']; exact List.prefix_refl _)
        · obtain ⟨t, ht⟩ := h
          rw [← ht] at hr hp'
          have htp := (List.prefix_append_right_inj _).1 hr
          obtain ⟨ks1, ks2, e1, e2⟩ := keyPath_prefix_split htp
          by_cases h1 : ks1 = []
          · subst h1
            rw [e2] at ht
            refine hF.once hb B hB ?_
            rw [← ht]; simp [keyPath]
          · by_cases h2 : ks2 = []
            · subst h2
              rw [List.append_nil] at e1
              rw [← e1] at e2
              refine hF.noValue B hB _ hx ?_
              show B.1 ++ keyPath a'.1 <+: _
              rw [← e2, ht]; exact List.prefix_refl _
            · have := mem_dottedOf_of ha' e1 h1 h2
              rw [← e2, ht] at this
              refine hF.noDotted B hB ?_
              rw [hs, Option.getD_some, named_append]
              rw [sectionPath_eq hs, hb] at this
              exact this
      have hkn := hA.known _ _ hk1
      generalize hp : sectionPath opened s ++ .key k :: q = p at hkn hpre
      cases hkn with
      | root => simp at hp
      | value h1 h2 h3 =>
        rw [← hp] at h3
        rcases prefix_cons_cases h3 with h | h
        · exact hF.noValue _ h1 _ h2 h
        · exact hassign _ h1 _ h2 h
      | dotted h1 h2 h3 =>
        obtain ⟨a', ha', ks1, ks2, e1, e2, e3, e4⟩ := mem_dottedOf h2
        refine hassign _ h1 _ (mem_assignsOf.2 ⟨a', ha', rfl⟩) ?_
        rw [e4] at hpre
        refine hpre.trans ?_
        show _ <+: _ ++ keyPath a'.1
        rw [e1]
        unfold keyPath
        rw [List.map_append, ← List.append_assoc]
        exact List.prefix_append _ _
      | table h1 => exact hkeys _ h1 hpre
      | way h1 h2 => exact hkeys _ h1 (by rw [h2]; exact hpre.trans (List.prefix_append _ _))
      | array h1 h2 h3 h4 => exact hkeys _ h1 (hpre.trans h2)

theorem path_key (hA : After T.value done opened) (hs : s.header = some (ks ++ [last])) (p : Path) (k : DKey) (rest : Path)
    (h : sectionPath opened s = p ++ .key k :: rest) : p ∉ opened := by
  have hnil : ([] : Path) ∉ opened := by
    intro hm
    obtain ⟨q, k, hq⟩ := hA.ends _ hm
    simp at hq
  obtain ⟨r1, r2⟩ := resolve_key hA.ends ks [] hnil (fun p k rest h => by simp at h)
  rw [sectionPath_eq hs] at h
  have h3 := key_split r1 r2 last
  split at h
  · rw [show resolve opened [] ks ++ [Step.key last, .index (opened.count (resolve opened [] ks ++ [.key last]))] =
      (resolve opened [] ks ++ [.key last]) ++ [.index (opened.count (resolve opened [] ks ++ [.key last]))] from by simp] at h
    exact index_split h3 p k rest h
  · exact h3 p k rest h

theorem path_index (hs : s.header = some (ks ++ [last])) (p : Path) (i : Nat) (rest : Path)
    (h : sectionPath opened s = p ++ .index i :: rest) :
    p ∈ opened ∨ (s.isArray = true ∧ p = resolve opened [] ks ++ [.key last] ∧ rest = [] ∧ i = opened.count p) := by
  have hidx : ∀ p i rest, resolve opened [] ks = p ++ .index i :: rest → 0 < opened.count p :=
    resolve_index ks [] (fun p i rest h => by have := congrArg List.length h; simp at this)
  have hkey : ∀ p i rest, resolve opened [] ks ++ [Step.key last] = p ++ .index i :: rest → p ∈ opened := by
    intro p i rest h
    rcases List.eq_nil_or_concat rest with rfl | ⟨rest', x, rfl⟩
    · have := congrArg List.getLast? h
      simp at this
    · rw [show p ++ Step.index i :: rest'.concat x = (p ++ .index i :: rest') ++ [x] from by simp] at h
      exact List.count_pos_iff.1 (hidx p i rest' (List.append_inj_left' h rfl))
  rw [sectionPath_eq hs] at h
  split at h
  · rename_i hb
    rw [show resolve opened [] ks ++ [Step.key last, .index (opened.count (resolve opened [] ks ++ [.key last]))] =
      (resolve opened [] ks ++ [.key last]) ++ [.index (opened.count (resolve opened [] ks ++ [.key last]))] from by simp] at h
    rcases List.eq_nil_or_concat rest with rfl | ⟨rest', x, rfl⟩
    · right
      obtain ⟨e1, e2⟩ := List.append_inj' h rfl
      injection e2 with e2
      injection e2 with e2
      exact ⟨hb, e1.symm, rfl, by rw [← e2, e1]⟩
    · left
      rw [show p ++ Step.index i :: rest'.concat x = (p ++ .index i :: rest') ++ [x] from by simp] at h
      exact hkey p i rest' (List.append_inj_left' h rfl)
  · exact Or.inl (hkey p i rest h)

/-- A new array of tables, or an array of tables. -/
theorem array_place (hA : After T.value done opened) (hs : s.header = some (ks ++ [last])) (hF : Follows done opened s)
    (hb : s.isArray = true) (hn : resolve opened [] ks ++ [.key last] ∉ opened) :
    kindAt T.value (resolve opened [] ks ++ [.key last]) = none := by
  cases hk : kindAt T.value (resolve opened [] ks ++ [.key last]) with
  | none => rfl
  | some k1 =>
    exfalso
    have hname : named opened (s.header.getD []) = resolve opened [] ks ++ [.key last] := by
      rw [hs, Option.getD_some, named_append]
    have ht := hF.noTable hb (by rw [hname]; exact hn)
    have hd := hF.noDotted
    rw [hname] at ht hd
    have hkn := hA.known _ _ hk
    have hv : resolve opened [] ks ++ [.key last] <+: sectionPath opened s := by
      rw [sectionPath_eq hs, if_pos hb]
      exact ⟨[.index (opened.count (resolve opened [] ks ++ [.key last]))], by simp⟩
    generalize hp : resolve opened [] ks ++ [Step.key last] = p at *
    cases hkn with
    | root => simp at hp
    | value h1 h2 h3 => exact hF.noValue _ h1 _ h2 (h3.trans hv)
    | dotted h1 h2 h3 => exact hd _ h1 h2
    | table h1 => exact ht _ h1 (List.prefix_refl _)
    | way h1 h2 => exact ht _ h1 (by rw [h2]; exact List.prefix_append _ _)
    | array h1 h2 h3 h4 => exact hn h3

/-- The place of a new element is free. -/
theorem element_free (hA : After T.value done opened) (hs : s.header = some (ks ++ [last])) (hF : Follows done opened s)
    (hb : s.isArray = true) : kindAt T.value (sectionPath opened s) = none := by
  have he : sectionPath opened s = (resolve opened [] ks ++ [.key last]) ++
      [.index (opened.count (resolve opened [] ks ++ [.key last]))] := by
    rw [sectionPath_eq hs, if_pos hb]; simp
  rw [he]
  by_cases hn : resolve opened [] ks ++ [.key last] ∈ opened
  · obtain ⟨a, ha, hk⟩ := (hA.count _).1 (List.count_pos_iff.2 hn)
    obtain ⟨vs, hvs, hlen⟩ := kindAt_array hk
    rw [kindAt_append hvs]
    refine kindAt_cons_none ?_ _
    show vs[_]? = none
    rw [← hlen]; simp
  · have := array_place hA hs hF hb hn
    cases hk : kindAt T.value (resolve opened [] ks ++ [.key last] ++ _) with
    | none => rfl
    | some k1 =>
      obtain ⟨x, hx⟩ := kindAt_prefix hk (List.prefix_append _ _)
      rw [this] at hx; cases hx

/-- The place of the table is free, or a table made on the way to another one. -/
theorem table_place (hA : After T.value done opened) (hs : s.header = some (ks ++ [last])) (hF : Follows done opened s) :
    kindAt T.value (sectionPath opened s) = none ∨ kindAt T.value (sectionPath opened s) = some (.table .parentTable) := by
  cases hb : s.isArray with
  | true => exact Or.inl (element_free hA hs hF hb)
  | false =>
    cases hk : kindAt T.value (sectionPath opened s) with
    | none => exact Or.inl rfl
    | some k1 =>
      right
      have hname : named opened (s.header.getD []) = sectionPath opened s := by
        unfold sectionPath; rw [if_neg (by rw [hb]; simp)]
      have hd := hF.noDotted
      rw [hname] at hd
      have hv := hF.noValue
      have hn := hF.noArray hb
      have h0 := sectionPath_ne_nil (opened := opened) hs
      have h1' := hF.once hb
      have hkn := hA.known _ _ hk
      generalize hp : sectionPath opened s = p at *
      cases hkn with
      | root => exact absurd rfl h0
      | value h1 h2 h3 => exact absurd h3 (hv _ h1 _ h2)
      | dotted h1 h2 h3 => exact absurd h2 (hd _ h1)
      | table h1 => exact absurd rfl (h1' _ h1)
      | way h1 h2 => rfl
      | array h1 h2 h3 h4 => exact absurd h3 hn

/-- The places of the key-values of a section are free. -/
theorem body_place_free (hA : After T.value done opened) (hs : s.header = some (ks ++ [last])) (hF : Follows done opened s)
    (hfill : Filled (mergeKeyValues ⟨.table, []⟩ s.kvs).1.value ((kvAssigns s.kvs).map (·.1)))
    {q : Path} {k2 : DKind σ} (hq0 : q ≠ []) (hq : kindAt (mergeKeyValues ⟨.table, []⟩ s.kvs).1.value q = some k2) :
    kindAt T.value (sectionPath opened s ++ q) = none := by
  have : ∃ a ∈ kvAssigns s.kvs, ∃ k ks' q', a.1 = k :: ks' ∧ q = .key k :: q' := by
    have hcases : ∃ ks ∈ (kvAssigns s.kvs).map (·.1), keyPath ks <+: q ∨ q <+: keyPath ks := by
      rcases hfill q k2 hq0 hq with ⟨ks, h1, h2⟩ | ⟨ks, h1, h2, -⟩
      · exact ⟨ks, h1, Or.inl h2⟩
      · exact ⟨ks, h1, Or.inr h2⟩
    obtain ⟨ks, h1, h2⟩ := hcases
    obtain ⟨a, ha, rfl⟩ := List.mem_map.1 h1
    refine ⟨a, ha, ?_⟩
    obtain ⟨a1, a2⟩ := a
    cases a1 with
    | nil => exact absurd rfl (valid_keys hF.kvs.1 _ ha)
    | cons k ks' =>
      cases q with
      | nil => exact absurd rfl hq0
      | cons st q' =>
        refine ⟨k, ks', q', rfl, ?_⟩
        rcases h2 with h2 | h2
        · have h2' : Step.key k :: keyPath ks' <+: st :: q' := h2
          rw [(List.cons_prefix_cons.1 h2').1]
        · have h2' : st :: q' <+: Step.key k :: keyPath ks' := h2
          rw [(List.cons_prefix_cons.1 h2').1]
  obtain ⟨a, ha, k, ks', q', e1, rfl⟩ := this
  exact body_free hA hs hF ha e1 q' (element_free hA hs hF)

/-- What a section puts at each place fits. -/
theorem placed_fits (hA : After T.value done opened) (hs : s.header = some (ks ++ [last])) (hF : Follows done opened s)
    (hbk : (mergeKeyValues ⟨.table, []⟩ s.kvs).1.kind = .table)
    (hfill : Filled (mergeKeyValues ⟨.table, []⟩ s.kvs).1.value ((kvAssigns s.kvs).map (·.1)))
    {p : Path} {k2 : DKind σ} (h : Placed (mergeKeyValues ⟨.table, []⟩ s.kvs).1.value (sectionPath opened s) p k2) :
    Fits (kindAt T.value p) k2 := by
  rcases h with ⟨q, rfl, hq⟩ | ⟨st, rest, hr, rfl⟩
  · by_cases hq0 : q = []
    · subst hq0
      have : k2 = .table .table := by rw [← hbk]; cases hq; rfl
      subst this
      rw [List.append_nil]
      rcases table_place hA hs hF with h | h
      · exact Or.inl h
      · right; exact ⟨_, _, h, rfl⟩
    · exact Or.inl (body_place_free hA hs hF hfill hq0 hq)
  · cases st with
    | key k =>
      cases hk1 : kindAt T.value p with
      | none => exact Or.inl rfl
      | some k1 =>
        right
        have hno := path_key hA hs p k rest hr
        have hv : p <+: sectionPath opened s := by rw [hr]; exact List.prefix_append _ _
        cases hA.known _ _ hk1 with
        | root => exact ⟨_, _, rfl, rfl⟩
        | value h1 h2 h3 => exact absurd (h3.trans hv) (hF.noValue _ h1 _ h2)
        | dotted h1 h2 h3 => rcases h3 with rfl | rfl <;> exact ⟨_, _, rfl, rfl⟩
        | table h1 => exact ⟨_, _, rfl, rfl⟩
        | way h1 h2 => exact ⟨_, _, rfl, rfl⟩
        | array h1 h2 h3 h4 => exact absurd h3 hno
    | index i =>
      have harr : p ∈ opened → Fits (kindAt T.value p) (wayKind (.index i) rest) := by
        intro hp
        obtain ⟨a, ha, hk⟩ := (hA.count _).1 (List.count_pos_iff.2 hp)
        have hm : ∃ k, mergedKind (.array a (opened.count p)) (wayKind (.index i) rest : DKind σ) = some k := by
          unfold wayKind
          rw [mergedKind, if_pos ⟨ha, by split <;> simp⟩]
          exact ⟨_, rfl⟩
        obtain ⟨k, hm⟩ := hm
        exact Or.inr ⟨_, k, hk, hm⟩
      rcases path_index hs p i rest hr with hp | ⟨hb, rfl, -, -⟩
      · exact harr hp
      · by_cases hn : resolve opened [] ks ++ [.key last] ∈ opened
        · exact harr hn
        · exact Or.inl (array_place hA hs hF hb hn)

/-- One valid section is merged without errors. -/
theorem section_accepts {prev : List (AstSection σ)} (hA : After T.value done opened)
    (hs : s.header = some (ks ++ [last])) (hF : Follows done opened s)
    (hflag : ∀ name, name <+: ks ++ [last] → name ≠ ks ++ [last] → name ≠ [] →
      ((parentArrayKeys prev (ks ++ [last])).contains name = true ↔ named opened name ∈ opened))
    (hreg : ∀ name, name <+: ks ++ [last] → name ≠ ks ++ [last] →
      (∃ s' ∈ prev, s'.isArray = true ∧ s'.header = some name) → named opened name ∈ opened) :
    (s.tree prev).2 = [] ∧ (T.merge (s.tree prev).1).2 = [] ∧
    After (T.merge (s.tree prev).1).1.value (done ++ [(sectionPath opened s, s.kvs)]) (openedAfter opened s) := by
  obtain ⟨he, hfill⟩ := kvs_accept s.kvs ⟨.table, []⟩ [] (empty_bodyOk (Or.inl rfl)) (by
      intro p k hp hk
      cases p with
      | nil => exact absurd rfl hp
      | cons s p => cases s <;> cases hk) hF.kvs.1 hF.kvs.2 (by simp)
  rw [List.nil_append] at hfill
  obtain ⟨t1, t2⟩ := section_tree prev s ks last hs
  obtain ⟨hb, hbk, -⟩ := body_ok he
  have hfits := @placed_fits σ T done opened s ks last hA hs hF hbk hfill
  have hbp : Everywhere PlainOk (mergeKeyValues ⟨.table, []⟩ s.kvs).1.value :=
    plain_of_body (fun a vs h => (by cases h)) hb.body
  obtain ⟨e1, e2⟩ := DTable.merge_value T (s.tree prev).1
  have hok := (spineTree_localOk (b := (mergeKeyValues ⟨.table, []⟩ s.kvs).1.value) rfl hb.ok
    (sectionFlags (parentArrayKeys prev (ks ++ [last])) s.isArray ks last)).1
  have hsg := spineTree_singleOk (b := (mergeKeyValues ⟨.table, []⟩ s.kvs).1.value) rfl hbp
    (sectionFlags (parentArrayKeys prev (ks ++ [last])) s.isArray ks last)
  have hpath := spine_place hA.count (b := (mergeKeyValues ⟨.table, []⟩ s.kvs).1.value)
    (parentArrayKeys prev (ks ++ [last])) s.isArray last ks [] []
    (flagAt_of (header := ks ++ [last]) hflag last ks [] rfl)
    (fun hba w hw => by
      by_cases hn : resolve opened [] ks ++ [.key last] ∈ opened
      · obtain ⟨a, ha, hk⟩ := (hA.count _).1 (List.count_pos_iff.2 hn)
        obtain ⟨vs, hvs, -⟩ := kindAt_array hk
        rw [hw] at hvs; cases hvs
        exact ⟨a, vs, rfl, ha⟩
      · have := array_place hA hs hF hba hn
        unfold kindAt at this
        rw [hw] at this; cases this)
  rw [List.nil_append, ← sectionPath_eq (opened := opened) hs] at hpath
  have hplaces := spine_places _ hbp _ (sectionFlags_ok (parentArrayKeys prev (ks ++ [last])) s.isArray ks last)
    (some T.value)
  have hr : embed (some T.value) (spineTree (mergeKeyValues ⟨.table, []⟩ s.kvs).1.value
      (sectionFlags (parentArrayKeys prev (ks ++ [last])) s.isArray ks last))
      (spinePath (sectionFlags (parentArrayKeys prev (ks ++ [last])) s.isArray ks last)) = sectionPath opened s := hpath
  simp only [hr] at hplaces
  have hm : (T.merge (s.tree prev).1).2 = [] := by
    rw [e2, t2]
    refine merge_accepts _ [] _ hA.ok hok hsg (fun p k hk => ?_) (fun p k2 hk => ?_)
    · exact placed_not_root hb hbk (((hplaces _ k).2).1 ⟨p, rfl, hk⟩)
    · exact hfits (((hplaces _ k2).2).1 ⟨p, rfl, hk⟩)
  refine ⟨by rw [t1]; exact he, hm, ?_⟩
  have hst := section_step hA.ok hA.count hs hreg (by rw [t1]; exact he) hm
  have hmem : (sectionPath opened s, s.kvs) ∈ done ++ [(sectionPath opened s, s.kvs)] :=
    List.mem_append_right _ List.mem_cons_self
  have hdone : ∀ B ∈ done, B ∈ done ++ [(sectionPath opened s, s.kvs)] := fun B hB => List.mem_append_left _ hB
  have hop : ∀ q ∈ opened, q ∈ openedAfter opened s := by
    intro q hq
    unfold openedAfter
    split
    · exact List.mem_append_left _ hq
    · exact hq
  refine ⟨section_ok hA.ok hs, countInv_step hA.count hb hs hst, ?_, ?_, ?_⟩
  · intro p hp
    rw [openedAfter_eq hs] at hp
    split at hp
    · rcases List.mem_append.1 hp with hp | hp
      · exact hA.ends p hp
      · rw [List.mem_singleton] at hp
        exact ⟨_, _, hp⟩
    · exact hA.ends p hp
  · intro p k hk
    by_cases hpl : ∃ k2, Placed (mergeKeyValues ⟨.table, []⟩ s.kvs).1.value (sectionPath opened s) p k2
    · obtain ⟨k2, hpl⟩ := hpl
      have hstep := hst.placed p k2 hpl
      rcases hpl with ⟨q, rfl, hq⟩ | ⟨st, rest, hrr, rfl⟩
      · by_cases hq0 : q = []
        · subst hq0
          have hk2 : k2 = .table .table := by rw [← hbk]; cases hq; rfl
          subst hk2
          have : k = .table .table := by
            rw [List.append_nil] at hstep hk
            rcases hstep with ⟨h1, h2⟩ | ⟨k1, k', h1, h2, h3⟩
            · rw [h2] at hk; cases hk; rfl
            · rw [h3] at hk; cases hk
              rcases table_place hA hs hF with h | h
              · rw [h1] at h; cases h
              · rw [h1] at h; cases h; cases h2; rfl
          rw [this, List.append_nil]
          exact .table (B := (sectionPath opened s, s.kvs)) hmem
        · have hfree := body_place_free hA hs hF hfill hq0 hq
          have : k = k2 := by
            rcases hstep with ⟨h1, h2⟩ | ⟨k1, k', h1, h2, h3⟩
            · rw [h2] at hk; cases hk; rfl
            · rw [hfree] at h1; cases h1
          subst this
          rcases hfill q k hq0 hq with ⟨kk, h1, h2⟩ | ⟨kk, h1, h2, h3, h4⟩
          · obtain ⟨a, ha, rfl⟩ := List.mem_map.1 h1
            refine .value hmem (mem_assignsOf.2 ⟨a, ha, rfl⟩) ?_
            exact (List.prefix_append_right_inj _).2 h2
          · obtain ⟨a, ha, rfl⟩ := List.mem_map.1 h1
            obtain ⟨ks1, ks2, e1', e2'⟩ := keyPath_prefix_split h2
            have hd := mem_dottedOf_of (B := (sectionPath opened s, s.kvs)) ha e1'
              (fun h => hq0 (by rw [e2', h]; rfl))
              (fun h => h3 (by rw [e2', e1', h, List.append_nil]))
            rw [← e2'] at hd
            rcases h4 with rfl | rfl
            · exact .dotted hmem hd (Or.inl rfl)
            · exact .dotted hmem hd (Or.inr rfl)
      · cases st with
        | key kk =>
          rcases hstep with ⟨h1, h2⟩ | ⟨k1, k', h1, h2, h3⟩
          · rw [h2] at hk; cases hk
            exact .way hmem hrr
          · rw [h3] at hk; cases hk
            have : k = k1 := by
              cases k1 with
              | table t1 => cases t1 <;> cases h2 <;> rfl
              | _ => cases h2
            rw [this]
            exact (hA.known p k1 h1).mono hdone hop
        | index i =>
          have hpo : p ∈ openedAfter opened s := by
            rcases path_index hs p i rest hrr with h | ⟨h1, h2, -, -⟩
            · exact hop p h
            · rw [openedAfter_eq hs, if_pos h1, h2]
              exact List.mem_append_right _ List.mem_cons_self
          rcases hstep with ⟨h1, h2⟩ | ⟨k1, k', h1, h2, h3⟩
          · rw [h2] at hk; cases hk
            exact .array hmem (by rw [hrr]; exact List.prefix_append _ _) hpo (by split <;> simp)
          · rw [h3] at hk; cases hk
            have : ∃ a n, k = .array a n ∧ a ≠ .array := by
              unfold wayKind at h2
              cases k1 with
              | array a n => exact merged_array h2
              | _ => cases h2
            obtain ⟨a, n, rfl, ha⟩ := this
            exact .array hmem (by rw [hrr]; exact List.prefix_append _ _) hpo ha
    · rw [hst.other p (fun k2 h => hpl ⟨k2, h⟩)] at hk
      exact (hA.known p k hk).mono hdone hop
  · intro B hB hnone
    rcases List.mem_append.1 hB with hB | hB
    · cases hk : kindAt T.value B.1 with
      | none => exact hA.there B hB hk
      | some k =>
        obtain ⟨k', hk'⟩ := step_some hst hk
        rw [hnone] at hk'; cases hk'
    · rw [List.mem_singleton] at hB
      subst hB
      have hp : Placed (mergeKeyValues ⟨.table, []⟩ s.kvs).1.value (sectionPath opened s) (sectionPath opened s) (.table .table) :=
        Or.inl ⟨[], by simp, by show some (DKind.table _) = _; rw [hbk]⟩
      rcases hst.placed _ _ hp with ⟨-, h2⟩ | ⟨k1, k', -, -, h3⟩
      · rw [hnone] at h2; cases h2
      · rw [hnone] at h3; cases h3

end

theorem follows_header {done : List (Path × List (AstKeyValue σ))} {opened : List Path} {s : AstSection σ}
    (h : Follows done opened s) : ∃ ks last, s.header = some (ks ++ [last]) := by
  obtain ⟨keys, h1, h2⟩ := h.header
  rcases List.eq_nil_or_concat keys with rfl | ⟨ks, last, rfl⟩
  · exact absurd rfl h2
  · exact ⟨ks, last, by rw [h1, List.concat_eq_append]⟩

/-- Valid sections are merged without errors. -/
theorem sections_accept (sections : List (AstSection σ)) : ∀ (prev : List (AstSection σ)) (T : DTable σ)
    (done : List (Path × List (AstKeyValue σ))) (opened : List Path), After T.value done opened →
    AllFollow done opened sections → RegularFrom prev opened sections → UninterruptedFrom prev opened sections →
    (mergeSections prev T sections).2 = [] := by
  induction sections with
  | nil => intro prev T done opened _ _ _ _; rw [mergeSections]
  | cons s rest ih =>
    intro prev T done opened hA hF hreg hun
    obtain ⟨ks, last, hs⟩ := follows_header hF.1
    obtain ⟨h1, h2, h3⟩ := section_accepts (prev := prev) hA hs hF.1 (fun name hp hne hn => ⟨fun hc =>
        hreg.1 _ name hs hp hne (mem_parentArrayKeys hc).2, fun hm => by
          obtain ⟨between, s', before, e1, e2, e3, e4⟩ := hun.1 _ name hs hp hne hn hm
          exact mem_parentArrayKeys_of e1 e2 e3 hn hp e4⟩)
      (fun name hp hne hex => hreg.1 (ks ++ [last]) name hs hp hne hex)
    rw [mergeSections]
    simp only [h1, h2, ih (s :: prev) _ _ _ h3 hF.2 hreg.2 hun.2, List.append_nil]

/-- A valid document is converted without errors. -/
theorem valid_accepted (root : AstRoot σ) (hv : Valid root) (hr : Regular root) (hu : Uninterrupted root) :
    root.tree.2 = [] := by
  obtain ⟨v1, v2, v3⟩ := hv
  obtain ⟨he, hfill⟩ := kvs_accept root.kvs ⟨.root, []⟩ [] (empty_bodyOk (Or.inr rfl)) (by
      intro p k hp hk
      cases p with
      | nil => exact absurd rfl hp
      | cons s p => cases s <;> cases hk) v1 v2 (by simp)
  rw [List.nil_append] at hfill
  obtain ⟨r1, r2, -⟩ := root_start he
  have hkind := (merge_kvs_spec ⟨.root, []⟩ (empty_bodyOk (Or.inr rfl)) root.kvs he).2.1
  have hA : After (mergeKeyValues ⟨.root, []⟩ root.kvs).1.value [([], root.kvs)] [] := by
    refine ⟨r1, r2, fun p hp => (by cases hp), ?_, ?_⟩
    · intro p k hk
      have hmem : (([] : Path), root.kvs) ∈ [(([] : Path), root.kvs)] := List.mem_cons_self
      by_cases hp : p = []
      · subst hp
        have hk' : some (DKind.table _) = some k := hk
        rw [hkind] at hk'
        cases hk'
        exact .root
      · rcases hfill p k hp hk with ⟨kk, h1, h2⟩ | ⟨kk, h1, h2, h3, h4⟩
        · obtain ⟨a, ha, rfl⟩ := List.mem_map.1 h1
          exact .value hmem (mem_assignsOf.2 ⟨a, ha, rfl⟩) h2
        · obtain ⟨a, ha, rfl⟩ := List.mem_map.1 h1
          obtain ⟨ks1, ks2, e1', e2'⟩ := keyPath_prefix_split h2
          have hd := mem_dottedOf_of (B := (([] : Path), root.kvs)) ha e1'
            (fun h => hp (by rw [e2', h]; rfl))
            (fun h => h3 (by rw [e2', e1', h, List.append_nil]))
          rw [← e2'] at hd
          rcases h4 with rfl | rfl
          · exact .dotted hmem hd (Or.inl rfl)
          · exact .dotted hmem hd (Or.inr rfl)
    · intro B hB h
      rw [List.mem_singleton] at hB
      subst hB
      cases h
  unfold AstRoot.tree
  simp only [he, sections_accept root.sections [] _ _ _ hA v3 hr hu, List.append_nil]

end Tombi
