import Verif.Spec.Valid
/-!
Documents whose headers pass no array of tables and whose keys are single: when they are valid.
-/
namespace Tombi.Serializing
open Spec

variable {σ : Type}

/-- A table or an element of an array of tables with keys that are not dotted. -/
structure Sect (σ : Type) where
  arr : Bool
  path : List DKey
  kvs : List (DKey × AstValue σ)

/-- Key-values with single keys. -/
def kvsOf (kvs : List (DKey × AstValue σ)) : List (AstKeyValue σ) := kvs.map fun kv => .mk (some [kv.1]) (some kv.2)

def Sect.toSection (s : Sect σ) : AstSection σ := ⟨s.arr, some s.path, kvsOf s.kvs⟩

/-- `b` may follow after `a`, somewhere. -/
def Sect.Before (a b : Sect σ) : Prop :=
  (a.arr = true ∧ b.arr = true ∧ a.path = b.path) ∨ (¬ a.path <+: b.path ∧ ¬ b.path <+: a.path) ∨
  (a.arr = false ∧ ∃ k r, b.path = a.path ++ k :: r ∧ k ∉ a.kvs.map (·.1))

/-- The key-values of one table are fine. -/
def Sect.Fine (s : Sect σ) : Prop := (s.kvs.map (·.1)).Nodup ∧ ∀ kv ∈ s.kvs, ValidValue kv.2

theorem kvAssigns_kvsOf (kvs : List (DKey × AstValue σ)) : kvAssigns (kvsOf kvs) = kvs.map fun kv => ([kv.1], kv.2) := by
  induction kvs with
  | nil => rfl
  | cons kv kvs ih =>
    simp only [kvsOf, kvAssigns, List.map_cons, List.filterMap_cons] at ih ⊢
    rw [ih]

theorem fine_keysApart {s : Sect σ} (h : s.Fine) : KeysApart (kvsOf s.kvs) := by
  unfold KeysApart
  rw [kvAssigns_kvsOf, List.pairwise_map]
  have := h.1
  rw [List.Nodup, List.pairwise_map] at this
  refine this.imp fun {a b} hne => ⟨fun h => hne ?_, fun h => hne ?_⟩
  · simpa using h
  · simpa [eq_comm] using h

theorem fine_validKvs : ∀ (kvs : List (DKey × AstValue σ)), (∀ kv ∈ kvs, ValidValue kv.2) → ValidKvs (kvsOf kvs)
  | [], _ => by rw [kvsOf, List.map_nil, ValidKvs]; trivial
  | kv :: kvs, h => by
    rw [kvsOf, List.map_cons, ValidKvs, ValidKv]
    exact ⟨⟨by simp, h kv List.mem_cons_self⟩, fine_validKvs kvs fun x hx => h x (List.mem_cons_of_mem _ hx)⟩

/-- The place of a table: behind its keys stands nothing, or the index of an element. -/
def Tail (t : Path) : Prop := t = [] ∨ ∃ i, t = [.index i]

theorem keyPath_append (p q : List DKey) : keyPath (p ++ q) = keyPath p ++ keyPath q := List.map_append

theorem keyPath_inj {p q : List DKey} (h : keyPath p = keyPath q) : p = q :=
  List.map_inj_right (fun _ _ e => by cases e; rfl) |>.mp h

theorem prefix_of_keyPath : ∀ {p q : List DKey} {t : Path}, Tail t → keyPath p <+: keyPath q ++ t → p <+: q
  | [], _, _, _, _ => List.nil_prefix
  | k :: p, [], t, ht, h => by
    rcases ht with rfl | ⟨i, rfl⟩
    · simp [keyPath] at h
    · simp [keyPath] at h
  | k :: p, k' :: q, t, ht, h => by
    simp only [keyPath, List.map_cons, List.cons_append, List.cons_prefix_cons, Step.key.injEq] at h ⊢
    obtain ⟨rfl, h⟩ := h
    exact ⟨rfl, prefix_of_keyPath ht h⟩

theorem keyPath_prefix {p q : List DKey} (h : p <+: q) : keyPath p <+: keyPath q := by
  obtain ⟨r, rfl⟩ := h
  rw [keyPath_append]
  exact List.prefix_append _ _

theorem not_prefix_index : ∀ {p q : List DKey} {t : Path} {i : Nat} {k : DKey}, Tail t →
    ¬ keyPath p ++ [.index i, .key k] <+: keyPath q ++ t
  | [], [], t, i, k, ht => by
    rcases ht with rfl | ⟨j, rfl⟩ <;> simp [keyPath]
  | [], k' :: q, t, i, k, ht => by simp [keyPath]
  | k' :: p, [], t, i, k, ht => by
    rcases ht with rfl | ⟨j, rfl⟩ <;> simp [keyPath]
  | a :: p, b :: q, t, i, k, ht => by
    intro h
    simp only [keyPath, List.map_cons, List.cons_append, List.cons_prefix_cons] at h
    exact not_prefix_index ht h.2

theorem keyPath_ne_index {p q : List DKey} {i : Nat} : keyPath p ≠ keyPath q ++ [.index i] := by
  intro h
  have : Step.index i ∈ keyPath p := by rw [h]; simp
  simp [keyPath] at this

theorem resolve_free {opened : List Path} : ∀ (ks : List DKey) (cur : Path),
    (∀ q, q <+: ks → q ≠ [] → cur ++ keyPath q ∉ opened) → resolve opened cur ks = cur ++ keyPath ks
  | [], cur, _ => by simp [resolve, keyPath]
  | k :: ks, cur, h => by
    have h1 : enter opened (cur ++ [.key k]) = cur ++ [.key k] := by
      unfold enter
      rw [List.count_eq_zero.mpr (by simpa [keyPath] using h [k] (by simp) (by simp))]
    rw [resolve, h1, resolve_free ks _ fun q hq hne => ?_]
    · simp [keyPath]
    · have := h (k :: q) (by simpa using hq) (by simp)
      simpa [keyPath] using this

/-- A header that passes no array of tables names the place of its keys. -/
theorem named_free {opened : List Path} {h : List DKey} (hne : h ≠ [])
    (hf : ∀ q, q <+: h → q ≠ h → q ≠ [] → keyPath q ∉ opened) : named opened h = keyPath h := by
  unfold named
  rw [List.getLast?_eq_some_getLast hne]
  simp only
  rw [resolve_free _ _ fun q hq hq0 => ?_]
  · simp only [List.nil_append]
    conv => rhs; rw [← List.dropLast_concat_getLast hne, keyPath_append]
    rfl
  · rw [List.nil_append]
    refine hf q (hq.trans (List.dropLast_prefix h)) (fun e => ?_) hq0
    subst e
    have := hq.length_le
    simp only [List.length_dropLast] at this
    have := List.length_pos_iff.mpr hne
    omega

/-- The places of the arrays of tables. -/
def openedOf (prev : List (Sect σ)) : List Path := (prev.filter (·.arr)).map fun a => keyPath a.path

theorem mem_openedOf {prev : List (Sect σ)} {p : List DKey} :
    keyPath p ∈ openedOf prev ↔ ∃ a ∈ prev, a.arr = true ∧ a.path = p := by
  simp only [openedOf, List.mem_map, List.mem_filter]
  constructor
  · rintro ⟨a, ⟨h1, h2⟩, h3⟩; exact ⟨a, h1, h2, keyPath_inj h3⟩
  · rintro ⟨a, h1, h2, rfl⟩; exact ⟨a, ⟨h1, h2⟩, rfl⟩

theorem free_of_before {prev : List (Sect σ)} {s : Sect σ} (hb : ∀ a ∈ prev, a.Before s) {q : List DKey}
    (hq : q <+: s.path) (hne : q ≠ s.path) : keyPath q ∉ openedOf prev := by
  intro hm
  obtain ⟨a, ha, h1, rfl⟩ := mem_openedOf.mp hm
  rcases hb a ha with ⟨-, -, h⟩ | ⟨h, -⟩ | ⟨h, -⟩
  · exact hne h
  · exact h hq
  · rw [h1] at h; cases h

theorem named_before {prev : List (Sect σ)} {s : Sect σ} (hb : ∀ a ∈ prev, a.Before s) (hne : s.path ≠ []) :
    named (openedOf prev) s.path = keyPath s.path :=
  named_free hne fun _ hq h1 _ => free_of_before hb hq h1

/-- The place of the table of a section. -/
theorem sectionPath_before {prev : List (Sect σ)} {s : Sect σ} (hb : ∀ a ∈ prev, a.Before s) (hne : s.path ≠ []) :
    ∃ t, Tail t ∧ (s.arr = false → t = []) ∧ (s.arr = true → t ≠ []) ∧ sectionPath (openedOf prev) s.toSection = keyPath s.path ++ t := by
  simp only [sectionPath, Sect.toSection, Option.getD_some, named_before hb hne]
  cases s.arr with
  | true => exact ⟨_, .inr ⟨_, rfl⟩, by simp, by simp, by rw [if_pos rfl]⟩
  | false => exact ⟨[], .inl rfl, by simp, by simp, by simp⟩

theorem openedAfter_before {prev : List (Sect σ)} {s : Sect σ} (hb : ∀ a ∈ prev, a.Before s) (hne : s.path ≠ []) :
    openedAfter (openedOf prev) s.toSection = openedOf (prev ++ [s]) := by
  simp only [openedAfter, Sect.toSection, Option.getD_some, named_before hb hne]
  by_cases h : s.arr = true
  · rw [if_pos h]
    simp [openedOf, List.filter_append, h]
  · rw [if_neg h]
    simp [openedOf, List.filter_append, h]

/-- The tables so far, with their places. -/
def Bodies (prev : List (Sect σ)) (done : List (Path × List (AstKeyValue σ))) : Prop :=
  ∀ B ∈ done, ∃ a ∈ prev, ∃ t, Tail t ∧ (a.arr = false → t = []) ∧ (a.arr = true → t ≠ []) ∧ B = (keyPath a.path ++ t, kvsOf a.kvs)

theorem dottedOf_kvsOf (p : Path) (kvs : List (DKey × AstValue σ)) : dottedOf (p, kvsOf kvs) = [] := by
  unfold dottedOf
  rw [kvAssigns_kvsOf]
  induction kvs with
  | nil => rfl
  | cons kv kvs ih => simpa using ih

theorem mem_assignsOf {p : Path} {kvs : List (DKey × AstValue σ)} {a : Path × AstValue σ} (h : a ∈ assignsOf (p, kvsOf kvs)) :
    ∃ kv ∈ kvs, a.1 = p ++ [.key kv.1] := by
  unfold assignsOf at h
  rw [kvAssigns_kvsOf] at h
  simp only [List.map_map, List.mem_map] at h
  obtain ⟨kv, h1, rfl⟩ := h
  exact ⟨kv, h1, rfl⟩

theorem follows_before {prev : List (Sect σ)} {done : List (Path × List (AstKeyValue σ))} {s : Sect σ}
    (hd : Bodies prev done) (hb : ∀ a ∈ prev, a.Before s) (hne : s.path ≠ []) (hf : s.Fine) :
    Follows done (openedOf prev) s.toSection := by
  obtain ⟨t, ht, ht1, ht2, hp⟩ := sectionPath_before hb hne
  have hn := named_before hb hne
  have hlen : ∀ {a : Sect σ} {k : DKey} {r : List DKey}, s.path = a.path ++ k :: r → ¬ s.path <+: a.path := by
    intro a k r e h
    have := h.length_le
    rw [e] at this
    simp at this
    omega
  refine ⟨⟨s.path, rfl, hne⟩, ⟨fine_validKvs _ hf.2, fine_keysApart hf⟩, ?_, ?_, ?_, ?_, ?_, ?_⟩
  · intro harr B hB e
    obtain ⟨a, ha, u, hu, hu1, hu2, rfl⟩ := hd B hB
    simp only [Sect.toSection] at harr
    rw [hp, ht1 harr, List.append_nil] at e
    have hu0 : u = [] := by
      rcases hu with rfl | ⟨i, rfl⟩
      · rfl
      · exact absurd e.symm keyPath_ne_index
    subst hu0
    have e := keyPath_inj (by simpa using e)
    rcases hb a ha with ⟨-, h, -⟩ | ⟨h, -⟩ | ⟨-, k, r, h, -⟩
    · rw [harr] at h; cases h
    · exact h (e ▸ List.prefix_refl _)
    · exact hlen h (e ▸ List.prefix_refl _)
  · intro harr hm
    simp only [Sect.toSection] at harr
    rw [hp, ht1 harr, List.append_nil] at hm
    obtain ⟨a, ha, h1, h2⟩ := mem_openedOf.mp hm
    rcases hb a ha with ⟨-, h, -⟩ | ⟨h, -⟩ | ⟨h, -⟩
    · rw [harr] at h; cases h
    · exact h (h2 ▸ List.prefix_refl _)
    · rw [h1] at h; cases h
  · intro harr hm B hB hpre
    simp only [Sect.toSection, Option.getD_some] at hm hpre harr
    rw [hn] at hm hpre
    obtain ⟨a, ha, u, hu, hu1, hu2, rfl⟩ := hd B hB
    have hpre := prefix_of_keyPath hu hpre
    rcases hb a ha with ⟨h1, -, h2⟩ | ⟨-, h⟩ | ⟨-, k, r, h, -⟩
    · exact hm (mem_openedOf.mpr ⟨a, ha, h1, h2⟩)
    · exact h hpre
    · exact hlen h hpre
  · intro B hB x hx hpre
    obtain ⟨a, ha, u, hu, hu1, hu2, rfl⟩ := hd B hB
    obtain ⟨kv, hkv, e⟩ := mem_assignsOf hx
    rw [e, hp] at hpre
    rcases hu with rfl | ⟨i, rfl⟩
    · rw [List.append_nil, show keyPath a.path ++ [Step.key kv.1] = keyPath (a.path ++ [kv.1]) by simp [keyPath]] at hpre
      have hpre := prefix_of_keyPath ht hpre
      rcases hb a ha with ⟨h1, -, h2⟩ | ⟨h, -⟩ | ⟨-, k, r, h, hk⟩
      · exact absurd (hu2 h1) (by simp)
      · exact h ((List.prefix_append _ _).trans hpre)
      · rw [h, List.prefix_append_right_inj] at hpre
        simp at hpre
        exact hk (List.mem_map.mpr ⟨kv, hkv, hpre⟩)
    · rw [List.append_assoc] at hpre
      exact not_prefix_index ht hpre
  · intro B hB
    obtain ⟨a, ha, u, hu, hu1, hu2, rfl⟩ := hd B hB
    rw [dottedOf_kvsOf]
    simp
  · intro B hB x hx k ks e hpre
    obtain ⟨a, ha, u, hu, hu1, hu2, rfl⟩ := hd B hB
    rw [hp] at hpre
    rcases ht with rfl | ⟨i, rfl⟩
    · rw [List.append_nil, show keyPath s.path ++ [Step.key k] = keyPath (s.path ++ [k]) by simp [keyPath]] at hpre
      have hpre := prefix_of_keyPath hu hpre
      have hpre : s.path <+: a.path := (List.prefix_append _ _).trans hpre
      rcases hb a ha with ⟨-, h1, -⟩ | ⟨-, h⟩ | ⟨-, k, r, h, hk⟩
      · exact absurd rfl (ht2 h1)
      · exact h hpre
      · exact hlen h hpre
    · rw [List.append_assoc] at hpre
      exact not_prefix_index hu hpre

theorem allFollow_before : ∀ (rest prev : List (Sect σ)) (done : List (Path × List (AstKeyValue σ))), Bodies prev done →
    (∀ a ∈ prev, ∀ s ∈ rest, a.Before s) → rest.Pairwise Sect.Before → (∀ s ∈ rest, s.path ≠ [] ∧ s.Fine) →
    AllFollow done (openedOf prev) (rest.map Sect.toSection)
  | [], _, _, _, _, _, _ => trivial
  | s :: rest, prev, done, hd, hb, hp, hf => by
    have hb' : ∀ a ∈ prev, a.Before s := fun a ha => hb a ha s List.mem_cons_self
    obtain ⟨h1, h2⟩ := hf s List.mem_cons_self
    refine ⟨follows_before hd hb' h1 h2, ?_⟩
    show AllFollow _ (openedAfter _ s.toSection) _
    rw [openedAfter_before hb' h1]
    obtain ⟨t, ht, ht1, ht2, hpath⟩ := sectionPath_before hb' h1
    obtain ⟨hp1, hp2⟩ := List.pairwise_cons.mp hp
    refine allFollow_before rest (prev ++ [s]) _ ?_ ?_ hp2 fun x hx => hf x (List.mem_cons_of_mem _ hx)
    · intro B hB
      rcases List.mem_append.mp hB with h | h
      · obtain ⟨a, ha, r⟩ := hd B h
        exact ⟨a, List.mem_append_left _ ha, r⟩
      · rw [List.mem_singleton] at h
        subst h
        exact ⟨s, by simp, t, ht, ht1, ht2, by rw [hpath]; rfl⟩
    · intro a ha x hx
      rcases List.mem_append.mp ha with h | h
      · exact hb a h x (List.mem_cons_of_mem _ hx)
      · rw [List.mem_singleton] at h
        subst h
        exact hp1 x hx

theorem regular_before : ∀ (rest prev : List (Sect σ)) (before : List (AstSection σ)),
    (∀ x ∈ before, ∃ a ∈ prev, x = a.toSection) →
    (∀ a ∈ prev, ∀ s ∈ rest, a.Before s) → rest.Pairwise Sect.Before → (∀ s ∈ rest, s.path ≠ []) →
    RegularFrom before (openedOf prev) (rest.map Sect.toSection)
  | [], _, _, _, _, _, _ => trivial
  | s :: rest, prev, before, hd, hb, hp, hf => by
    have hb' : ∀ a ∈ prev, a.Before s := fun a ha => hb a ha s List.mem_cons_self
    obtain ⟨hp1, hp2⟩ := List.pairwise_cons.mp hp
    refine ⟨?_, ?_⟩
    · intro header name e hpre hne ⟨x, hx, h1, h2⟩
      obtain ⟨a, ha, rfl⟩ := hd x hx
      simp only [Sect.toSection, Option.some.injEq] at e h1 h2
      subst e h2
      exact absurd (mem_openedOf.mpr ⟨a, ha, h1, rfl⟩) (free_of_before hb' hpre hne)
    · show RegularFrom _ (openedAfter _ s.toSection) _
      rw [openedAfter_before hb' (hf s List.mem_cons_self)]
      refine regular_before rest (prev ++ [s]) _ ?_ ?_ hp2 fun x hx => hf x (List.mem_cons_of_mem _ hx)
      · intro x hx
        rcases List.mem_cons.mp hx with rfl | h
        · exact ⟨s, by simp, rfl⟩
        · obtain ⟨a, ha, e⟩ := hd x h
          exact ⟨a, List.mem_append_left _ ha, e⟩
      · intro a ha x hx
        rcases List.mem_append.mp ha with h | h
        · exact hb a h x (List.mem_cons_of_mem _ hx)
        · rw [List.mem_singleton] at h
          subst h
          exact hp1 x hx

theorem uninterrupted_before : ∀ (rest prev : List (Sect σ)) (before : List (AstSection σ)),
    (∀ a ∈ prev, ∀ s ∈ rest, a.Before s) → rest.Pairwise Sect.Before → (∀ s ∈ rest, s.path ≠ []) →
    UninterruptedFrom before (openedOf prev) (rest.map Sect.toSection)
  | [], _, _, _, _, _ => trivial
  | s :: rest, prev, before, hb, hp, hf => by
    have hb' : ∀ a ∈ prev, a.Before s := fun a ha => hb a ha s List.mem_cons_self
    obtain ⟨hp1, hp2⟩ := List.pairwise_cons.mp hp
    refine ⟨?_, ?_⟩
    · intro header name e hpre hne h0 hm
      simp only [Sect.toSection, Option.some.injEq] at e
      subst e
      rw [named_free h0 fun q hq h1 _ => free_of_before hb' (hq.trans hpre) (fun e => h1 ?_)] at hm
      · exact absurd hm (free_of_before hb' hpre hne)
      · subst e
        exact hpre.eq_of_length (Nat.le_antisymm hpre.length_le hq.length_le) |>.symm
    · show UninterruptedFrom _ (openedAfter _ s.toSection) _
      rw [openedAfter_before hb' (hf s List.mem_cons_self)]
      refine uninterrupted_before rest (prev ++ [s]) _ ?_ hp2 fun x hx => hf x (List.mem_cons_of_mem _ hx)
      intro a ha x hx
      rcases List.mem_append.mp ha with h | h
      · exact hb a h x (List.mem_cons_of_mem _ hx)
      · rw [List.mem_singleton] at h
        subst h
        exact hp1 x hx

/-- A document of such tables is valid. -/
theorem sects_valid {kvs : List (DKey × AstValue σ)} {ss : List (Sect σ)}
    (hp : ((⟨false, [], kvs⟩ : Sect σ) :: ss).Pairwise Sect.Before) (h0 : (⟨false, [], kvs⟩ : Sect σ).Fine)
    (hf : ∀ s ∈ ss, s.path ≠ [] ∧ s.Fine) :
    Valid ⟨kvsOf kvs, ss.map Sect.toSection⟩ ∧ Regular ⟨kvsOf kvs, ss.map Sect.toSection⟩ ∧
      Uninterrupted ⟨kvsOf kvs, ss.map Sect.toSection⟩ := by
  obtain ⟨hp1, hp2⟩ := List.pairwise_cons.mp hp
  have hb : ∀ a ∈ [(⟨false, [], kvs⟩ : Sect σ)], ∀ s ∈ ss, a.Before s := by
    intro a ha s hs
    rw [List.mem_singleton] at ha
    subst ha
    exact hp1 s hs
  refine ⟨⟨fine_validKvs _ h0.2, fine_keysApart h0, ?_⟩, ?_, ?_⟩
  · refine allFollow_before ss [⟨false, [], kvs⟩] _ ?_ hb hp2 hf
    intro B hB
    rw [List.mem_singleton] at hB
    subst hB
    exact ⟨_, List.mem_singleton_self _, [], .inl rfl, by simp, by simp, rfl⟩
  · exact regular_before ss [⟨false, [], kvs⟩] [] (by simp) hb hp2 fun s hs => (hf s hs).1
  · exact uninterrupted_before ss [⟨false, [], kvs⟩] [] hb hp2 fun s hs => (hf s hs).1

end Tombi.Serializing
