import Verif.Spec.SchemaFile
/-! The positions of the schemas of a file. -/
namespace Tombi.SchemaFile
open Tombi.Offer (J Text)
open Tombi.Spec.SchemaFile

/-! ### look-up -/

theorem lookup_of_mem {A : Type} : ∀ {o : List (Text × A)} {k : Text} {j : A}, (o.map Prod.fst).Nodup → (k, j) ∈ o → o.lookup k = some j
  | (l, x) :: o, k, j, hn, h => by
    simp only [List.map_cons, List.nodup_cons] at hn
    rcases List.mem_cons.1 h with h | h
    · cases h
      simp [List.lookup]
    · have : (k == l) = false := by
        rw [beq_eq_false_iff_ne]
        intro e
        exact hn.1 (List.mem_map.2 ⟨(k, j), h, e⟩)
      simp only [List.lookup, this]
      exact lookup_of_mem hn.2 h

theorem mem_of_lookup {A : Type} : ∀ {o : List (Text × A)} {k : Text} {j : A}, o.lookup k = some j → (k, j) ∈ o
  | (l, x) :: o, k, j, h => by
    simp only [List.lookup] at h
    split at h
    · rename_i e
      have e := eq_of_beq e
      cases h
      rw [e]
      exact List.mem_cons_self
    · exact List.mem_cons_of_mem _ (mem_of_lookup h)

theorem kw_eq {o : Members} {name : String} : kw o name = o.lookup name.toList := rfl

theorem toList_inj {a b : String} (h : a.toList = b.toList) : a = b := String.ext_iff.2 h

/-! ### places -/

/-- `q` leads from a schema to the schema `j` in it. -/
inductive Place : Json → Pointer → Json → Prop where
  | here (j) : Place j [] j
  | direct {k o s q j} : k ∈ schemaKeywords → (k, s) ∈ o → IsSchema s → Place s q j → Place (.obj o) (.key k :: q) j
  | listed {k o xs i s q j} : k ∈ listKeywords → (k, .arr xs) ∈ o → xs[i]? = some s → Place s q j →
      Place (.obj o) (.key k :: .index i :: q) j
  | named {k o ms k' s q j} : k ∈ mapKeywords → (k, .obj ms) ∈ o → (k', s) ∈ ms → Place s q j →
      Place (.obj o) (.key k :: .key k' :: q) j

theorem Place.trans {a b c : Json} {p q : Pointer} (h : Place a p b) (h' : Place b q c) : Place a (p ++ q) c := by
  induction h with
  | here => exact h'
  | direct h1 h2 h3 _ ih => exact .direct h1 h2 h3 (ih h')
  | listed h1 h2 h3 _ ih => exact .listed h1 h2 h3 (ih h')
  | named h1 h2 h3 _ ih => exact .named h1 h2 h3 (ih h')

theorem keywords_apart : ∀ k ∈ schemaKeywords, k ∉ mapKeywords := by decide

theorem mem_placesIn : ∀ {o : Members} {k : Text} {j : Json} {q : Pointer}, (k, j) ∈ o → q ∈ placesOf k j → Step.key k :: q ∈ placesIn o
  | (l, x) :: o, k, j, q, h, hq => by
    rw [placesIn, List.mem_append]
    rcases List.mem_cons.1 h with h | h
    · cases h
      exact .inl (List.mem_map.2 ⟨q, hq, rfl⟩)
    · exact .inr (mem_placesIn h hq)

theorem mem_placesItems : ∀ {xs : List Json} {n i : Nat} {x : Json} {q : Pointer}, xs[i]? = some x → q ∈ places x →
    Step.index (n + i) :: q ∈ placesItems n xs
  | y :: xs, n, 0, x, q, h, hq => by
    simp only [List.getElem?_cons_zero, Option.some.injEq] at h
    subst h
    rw [placesItems, List.mem_append]
    exact .inl (List.mem_map.2 ⟨q, hq, rfl⟩)
  | y :: xs, n, i + 1, x, q, h, hq => by
    simp only [List.getElem?_cons_succ] at h
    rw [placesItems, List.mem_append]
    have := mem_placesItems (n := n + 1) h hq
    rw [show n + 1 + i = n + (i + 1) by omega] at this
    exact .inr this

theorem mem_placesMap : ∀ {o : Members} {k : Text} {j : Json} {q : Pointer}, (k, j) ∈ o → q ∈ places j → Step.key k :: q ∈ placesMap o
  | (l, x) :: o, k, j, q, h, hq => by
    rw [placesMap, List.mem_append]
    rcases List.mem_cons.1 h with h | h
    · cases h
      exact .inl (List.mem_map.2 ⟨q, hq, rfl⟩)
    · exact .inr (mem_placesMap h hq)

theorem nil_mem_places (j : Json) : [] ∈ places j := by
  cases j <;> simp [places]

theorem placesOf_schema {k : Text} {s : Json} (hk : k ∈ schemaKeywords) (hs : IsSchema s) : placesOf k s = places s := by
  rcases hs with ⟨b, rfl⟩ | ⟨o, rfl⟩
  · rw [placesOf, if_pos hk, places]
    intro o h
    cases h
  · rw [placesOf, if_neg (keywords_apart k hk), if_pos hk, places]

theorem Place.mem {r j : Json} {p : Pointer} (h : Place r p j) : p ∈ places r := by
  induction h with
  | here => exact nil_mem_places _
  | direct h1 h2 h3 _ ih =>
    rw [places]
    exact List.mem_cons_of_mem _ (mem_placesIn h2 (by rw [placesOf_schema h1 h3]; exact ih))
  | @listed k o xs i s q j h1 h2 h3 _ ih =>
    rw [places]
    refine List.mem_cons_of_mem _ (mem_placesIn h2 ?_)
    rw [placesOf, if_pos h1]
    have := mem_placesItems (n := 0) h3 ih
    rwa [Nat.zero_add] at this
  | named h1 h2 h3 _ ih =>
    rw [places]
    refine List.mem_cons_of_mem _ (mem_placesIn h2 ?_)
    rw [placesOf, if_pos h1]
    exact mem_placesMap h3 ih

theorem Place.mono {o o' : Members} (ho : ∀ x ∈ o, x ∈ o') {p : Pointer} : (∃ j, Place (.obj o) p j) → ∃ j, Place (.obj o') p j := by
  rintro ⟨j, h⟩
  cases h with
  | here => exact ⟨_, .here _⟩
  | direct h1 h2 h3 h => exact ⟨_, .direct h1 (ho _ h2) h3 h⟩
  | listed h1 h2 h3 h => exact ⟨_, .listed h1 (ho _ h2) h3 h⟩
  | named h1 h2 h3 h => exact ⟨_, .named h1 (ho _ h2) h3 h⟩

mutual
theorem place_of_mem : ∀ (j : Json) (p : Pointer), p ∈ places j → ∃ j', Place j p j'
  | .obj o, p, h => by
    rw [places] at h
    rcases List.mem_cons.1 h with rfl | h
    · exact ⟨_, .here _⟩
    · exact place_of_memIn o p h
  | .null, p, h => by
    simp only [places, List.mem_singleton] at h
    subst h
    exact ⟨_, .here _⟩
  | .bool _, p, h => by
    simp only [places, List.mem_singleton] at h
    subst h
    exact ⟨_, .here _⟩
  | .int _, p, h => by
    simp only [places, List.mem_singleton] at h
    subst h
    exact ⟨_, .here _⟩
  | .float _, p, h => by
    simp only [places, List.mem_singleton] at h
    subst h
    exact ⟨_, .here _⟩
  | .str _, p, h => by
    simp only [places, List.mem_singleton] at h
    subst h
    exact ⟨_, .here _⟩
  | .arr _, p, h => by
    simp only [places, List.mem_singleton] at h
    subst h
    exact ⟨_, .here _⟩
theorem place_of_memIn : ∀ (o : Members) (p : Pointer), p ∈ placesIn o → ∃ j', Place (.obj o) p j'
  | [], p, h => by simp [placesIn] at h
  | (k, j) :: o, p, h => by
    rw [placesIn, List.mem_append] at h
    rcases h with h | h
    · obtain ⟨q, hq, rfl⟩ := List.mem_map.1 h
      exact Place.mono (by simp) (place_of_memOf k j q hq)
    · exact Place.mono (fun x hx => List.mem_cons_of_mem _ hx) (place_of_memIn o p h)
theorem place_of_memOf : ∀ (k : Text) (j : Json) (q : Pointer), q ∈ placesOf k j → ∃ j', Place (.obj [(k, j)]) (.key k :: q) j'
  | k, .arr xs, q, h => by
    rw [placesOf] at h
    split at h
    · rename_i hk
      obtain ⟨i, x, q', rfl, hx, j', hp⟩ := place_of_memItems xs 0 q h
      rw [Nat.zero_add]
      exact ⟨j', .listed hk (by simp) hx hp⟩
    · cases h
  | k, .obj ms, q, h => by
    rw [placesOf] at h
    split at h
    · rename_i hk
      obtain ⟨k', x, q', rfl, hx, j', hp⟩ := place_of_memMap ms q h
      exact ⟨j', .named hk (by simp) hx hp⟩
    · split at h
      · rename_i hk
        rcases List.mem_cons.1 h with rfl | h
        · exact ⟨_, .direct hk (List.mem_singleton.2 rfl) (.inr ⟨_, rfl⟩) (.here _)⟩
        · obtain ⟨j', hp⟩ := place_of_memIn ms q h
          exact ⟨j', .direct hk (by simp) (.inr ⟨_, rfl⟩) hp⟩
      · cases h
  | k, .bool b, q, h => by
    rw [placesOf] at h
    split at h
    · rename_i hk
      rw [List.mem_singleton] at h
      subst h
      exact ⟨_, .direct hk (List.mem_singleton.2 rfl) (.inl ⟨_, rfl⟩) (.here _)⟩
    · cases h
  | k, .null, q, h => by simp [placesOf] at h
  | k, .int _, q, h => by simp [placesOf] at h
  | k, .float _, q, h => by simp [placesOf] at h
  | k, .str _, q, h => by simp [placesOf] at h
theorem place_of_memItems : ∀ (xs : List Json) (n : Nat) (q : Pointer), q ∈ placesItems n xs →
    ∃ (i : Nat) (x : Json) (q' : Pointer), q = .index (n + i) :: q' ∧ xs[i]? = some x ∧ ∃ j', Place x q' j'
  | [], n, q, h => by simp [placesItems] at h
  | x :: xs, n, q, h => by
    rw [placesItems, List.mem_append] at h
    rcases h with h | h
    · obtain ⟨q', hq, rfl⟩ := List.mem_map.1 h
      exact ⟨0, x, q', rfl, rfl, place_of_mem x q' hq⟩
    · obtain ⟨i, y, q', rfl, hy, hp⟩ := place_of_memItems xs (n + 1) q h
      exact ⟨i + 1, y, q', by rw [show n + 1 + i = n + (i + 1) by omega], by simpa using hy, hp⟩
theorem place_of_memMap : ∀ (ms : Members) (q : Pointer), q ∈ placesMap ms →
    ∃ (k : Text) (x : Json) (q' : Pointer), q = .key k :: q' ∧ (k, x) ∈ ms ∧ ∃ j', Place x q' j'
  | [], q, h => by simp [placesMap] at h
  | (k, x) :: ms, q, h => by
    rw [placesMap, List.mem_append] at h
    rcases h with h | h
    · obtain ⟨q', hq, rfl⟩ := List.mem_map.1 h
      exact ⟨k, x, q', rfl, by simp, place_of_mem x q' hq⟩
    · obtain ⟨k', y, q', rfl, hy, hp⟩ := place_of_memMap ms q h
      exact ⟨k', y, q', rfl, List.mem_cons_of_mem _ hy, hp⟩
end

/-! ### values at places -/

/-- No keys are repeated. -/
structure Distinct (root : Json) : Prop where
  object : ∀ o, Inside root (.obj o) → (o.map Prod.fst).Nodup
  map : ∀ o k ms, Inside root (.obj o) → k ∈ mapKeywords → (k, .obj ms) ∈ o → (ms.map Prod.fst).Nodup

theorem Inside.trans {a b c : Json} (h : Inside a b) (h' : Inside b c) : Inside a c := by
  induction h with
  | refl => exact h'
  | child hc _ ih => exact .child hc (ih h')

theorem Distinct.child {o : Members} {s : Json} (h : Distinct (.obj o)) (hc : Child o s) : Distinct s :=
  ⟨fun o' hi => h.object o' (.child hc hi), fun o' k ms hi => h.map o' k ms (.child hc hi)⟩

theorem not_arr {s : Json} (h : IsSchema s) : ∀ xs, s ≠ .arr xs := by
  rintro xs rfl
  rcases h with ⟨_, h⟩ | ⟨_, h⟩ <;> cases h

theorem child_direct {o : Members} {k : Text} {s : Json} (hn : (o.map Prod.fst).Nodup) (hk : k ∈ schemaKeywords) (h : (k, s) ∈ o)
    (hs : IsSchema s) : Child o s := by
  obtain ⟨name, hname, rfl⟩ := List.mem_map.1 hk
  exact .direct hname (lookup_of_mem hn h) (not_arr hs)

theorem child_listed {o : Members} {k : Text} {xs : List Json} {s : Json} (hn : (o.map Prod.fst).Nodup) (hk : k ∈ listKeywords)
    (h : (k, .arr xs) ∈ o) (hs : s ∈ xs) : Child o s := by
  obtain ⟨name, hname, rfl⟩ := List.mem_map.1 hk
  exact .listed hname (lookup_of_mem hn h) hs

theorem child_named {o ms : Members} {k k' : Text} {s : Json} (hn : (o.map Prod.fst).Nodup) (hk : k ∈ mapKeywords)
    (h : (k, .obj ms) ∈ o) (hs : (k', s) ∈ ms) : Child o s := by
  obtain ⟨name, hname, rfl⟩ := List.mem_map.1 hk
  exact .named hname (lookup_of_mem hn h) hs

theorem Place.inside {r j : Json} {p : Pointer} (h : Place r p j) : Distinct r → Inside r j ∧ valueAt r p = some j := by
  induction h with
  | here => exact fun _ => ⟨.refl _, rfl⟩
  | direct h1 h2 h3 _ ih =>
    intro hd
    have hn := hd.object _ (.refl _)
    have hc := child_direct hn h1 h2 h3
    obtain ⟨hi, hv⟩ := ih (hd.child hc)
    refine ⟨.child hc hi, ?_⟩
    simp only [valueAt, child, lookup_of_mem hn h2, Option.bind_some, hv]
  | listed h1 h2 h3 _ ih =>
    intro hd
    have hn := hd.object _ (.refl _)
    have hc := child_listed hn h1 h2 (List.mem_of_getElem? h3)
    obtain ⟨hi, hv⟩ := ih (hd.child hc)
    refine ⟨.child hc hi, ?_⟩
    simp only [valueAt, child, lookup_of_mem hn h2, Option.bind_some, h3, hv]
  | named h1 h2 h3 _ ih =>
    intro hd
    have hn := hd.object _ (.refl _)
    have hc := child_named hn h1 h2 h3
    obtain ⟨hi, hv⟩ := ih (hd.child hc)
    refine ⟨.child hc hi, ?_⟩
    simp only [valueAt, child, lookup_of_mem hn h2, Option.bind_some, lookup_of_mem (hd.map _ _ _ (.refl _) h1 h2) h3, hv]

theorem idOf_place {root j : Json} {p : Pointer} (h : Place root p j) : (places root)[idOf root p]? = some p := by
  have hlt : (places root).idxOf p < (places root).length := List.idxOf_lt_length_of_mem h.mem
  simp only [idOf, List.getElem?_eq_getElem hlt, List.getElem_idxOf]

end Tombi.SchemaFile
