import Verif.Proofs.EditorGathered
/-! The editor comes to an end. -/
namespace Tombi.Editing
open SyntaxKind
open Tombi.Formatter (Node Body Section Doc Comma Text Env docOf formatDoc childrenOf)
open Tombi.Reading (Scalar keyOr valueOf itemsOf keyValuesOf convert headComments astRoot)

variable {S : Type}

/-- There are ranks up to `R` for the schemas such that a schema leads only to schemas of a lower rank for the same value. -/
structure Ranked (w : EditWorld S) (R : Nat) where
  rank : S → Nat
  bound : ∀ s, rank s ≤ R
  sub : ∀ acc s s', w.sub acc (some s) = some s' → rank s' < rank s
  combined : ∀ acc s ss order, w.schemas.view s acc = .combined (some ss) order → ∀ s' ∈ ss, rank s' < rank s

/-- Where the document has an array, no schema says that there is a table. -/
def NoClash (w : EditWorld S) (root : DValue Scalar) : Prop :=
  ∀ acc kind ts s table, follow root acc = some (.array kind ts) → w.schemas.view s acc ≠ .table table

/-- The rank of a schema, or of no schema. -/
def Ranked.of {w : EditWorld S} {R : Nat} (h : Ranked w R) : Option S → Nat
  | none => R + 1
  | some s => h.rank s

theorem Ranked.of_le {w : EditWorld S} {R : Nat} (h : Ranked w R) (s : Option S) : h.of s ≤ R + 1 := by
  cases s with
  | none => exact Nat.le_refl _
  | some s => have := h.bound s; show h.rank s ≤ _; omega

theorem Ranked.sub_lt {w : EditWorld S} {R : Nat} (h : Ranked w R) {acc : List Accessor} {s : Option S} {s' : S}
    (hs : w.sub acc s = some s') : h.rank s' < h.of s := by
  cases s with
  | none => have := h.bound s'; show _ < R + 1; omega
  | some s => exact h.sub acc s s' hs

theorem Ranked.choose_lt {w : EditWorld S} {R : Nat} (h : Ranked w R) {t : DValue Scalar} {acc : List Accessor} {s : Option S} {s' : S}
    (hs : choose w t acc s = .follow s') : h.rank s' < h.of s := by
  cases s with
  | none => cases hs
  | some s =>
    unfold choose at hs
    rw [Option.map_some] at hs
    split at hs
    · cases hs
    · rename_i ss order e
      split at hs
      · rename_i s2 hf
        cases hs
        exact h.combined acc s ss order (Option.some.inj e) s' (List.mem_of_find?_eq_some hf)
      · cases hs
    · cases hs

theorem follow_append (t : DValue Scalar) (as : List Accessor) : ∀ bs, follow t (as ++ bs) = (follow t as).bind fun t' => follow t' bs := by
  induction as generalizing t with
  | nil => intro bs; cases t <;> simp [follow]
  | cons a as ih =>
    intro bs
    have e : ∀ cs, follow t (a :: cs) = (stepDown t a).bind fun t' => follow t' cs := by
      intro cs; cases t <;> cases a <;> simp [follow, stepDown]
    rw [List.cons_append, e, e]
    cases stepDown t a with
    | none => rfl
    | some t' => exact ih t' bs

theorem follow_one (t : DValue Scalar) (a : Accessor) : follow t [a] = stepDown t a := by
  cases t <;> cases a <;> simp [follow, stepDown]

theorem followSchema_ok {w : EditWorld S} {R : Nat} (hr : Ranked w R) {root : DValue Scalar} (hc : NoClash w root) :
    ∀ fuel (keys : List Accessor) (t : DValue Scalar) (acc : List Accessor) (schema : Option S), follow root acc = some t →
      keys.length * (R + 2) + hr.of schema < fuel →
      followSchema w fuel t keys acc schema = .ok none ∨ ∃ t' schema', follow root (acc ++ keys) = some t' ∧
        followSchema w fuel t keys acc schema = .ok (some (t', acc ++ keys, schema')) := by
  intro fuel
  induction fuel with
  | zero => intro _ _ _ _ _ h; omega
  | succ fuel ih =>
    intro keys t acc schema hf hl
    rw [followSchema.eq_def]
    simp only
    cases hs : w.sub acc schema with
    | some s =>
      have := hr.sub_lt hs
      exact ih keys t acc (some s) hf (by show _ + hr.rank s < _; omega)
    | none =>
      simp only
      cases hch : choose w t acc schema with
      | stop => exact .inl rfl
      | follow s =>
        have := hr.choose_lt hch
        exact ih keys t acc (some s) hf (by show _ + hr.rank s < _; omega)
      | here =>
        cases keys with
        | nil => exact .inr ⟨t, schema, by rw [List.append_nil]; exact hf, by simp⟩
        | cons a as =>
          simp only
          cases hd : stepDown t a with
          | none => exact .inl rfl
          | some t' =>
            have hf' : follow root (acc ++ [a]) = some t' := by rw [follow_append, hf, Option.bind_some, follow_one, hd]
            have hchild : ∃ schema', childSchema w acc a schema = .ok schema' := by
              unfold childSchema
              cases schema with
              | none => exact ⟨_, rfl⟩
              | some s =>
                simp only
                split
                · rename_i table i e
                  exfalso
                  cases t with
                  | array kind ts => exact hc acc kind ts s table hf e
                  | _ => cases hd
                all_goals exact ⟨_, rfl⟩
            obtain ⟨schema', e⟩ := hchild
            rw [e]
            simp only
            have h1 := hr.of_le schema'
            have h2 : (as.length + 1) * (R + 2) = as.length * (R + 2) + (R + 2) := Nat.succ_mul _ _
            rw [List.length_cons, h2] at hl
            rcases ih as t' (acc ++ [a]) schema' hf' (by omega) with h | ⟨t2, s2, h3, h4⟩
            · exact .inl h
            · refine .inr ⟨t2, s2, ?_, ?_⟩
              · rwa [List.append_assoc] at h3
              · rw [h4, List.append_assoc]; rfl

theorem itemSchema_ok {w : EditWorld S} {R : Nat} (hr : Ranked w R) : ∀ fuel (t : DValue Scalar) (acc : List Accessor) (schema : Option S),
    hr.of schema < fuel → ∃ item, itemSchema w fuel t acc schema = .ok item := by
  intro fuel
  induction fuel with
  | zero => intro _ _ _ h; omega
  | succ fuel ih =>
    intro t acc schema h
    rw [itemSchema]
    cases hs : w.sub acc schema with
    | some s =>
      have := hr.sub_lt hs
      exact ih t acc (some s) (by show hr.rank s < _; omega)
    | none =>
      simp only
      cases hch : choose w t acc schema with
      | follow s =>
        have := hr.choose_lt hch
        exact ih t acc (some s) (by show hr.rank s < _; omega)
      | stop => exact ⟨_, rfl⟩
      | here => exact ⟨_, rfl⟩

section
variable {w : EditWorld S} {R : Nat} (hr : Ranked w R) {root : DValue Scalar} (hc : NoClash w root)
include hr hc

mutual
theorem sortNode_ends (fuel : Nat) (v : TomlVersion) : (n : Node) → ∀ cs acc schema t, follow root acc = some t →
    nodeLength n * (R + 2) + R + 1 < fuel → ∃ n', sortNode w fuel v cs acc schema t n = .ok n'
  | .lit l k x tr, cs, acc, schema, t, hf, hl => ⟨_, by rw [sortNode]⟩
  | .array l s b tr, cs, acc, schema, t, hf, hl => by
    rw [nodeLength] at hl
    rw [sortNode]
    cases ht : arrayValues t with
    | none => exact ⟨_, rfl⟩
    | some ts =>
      simp only
      obtain ⟨item, hi⟩ := itemSchema_ok hr fuel t acc schema (by have := hr.of_le schema; omega)
      rw [hi]
      obtain ⟨b', hb⟩ := sortItems_ends fuel v b acc item 0 ts (fun j t' hj => by
        cases t with
        | array kind us =>
          obtain rfl := Option.some.inj ht
          rw [follow_append, hf, Option.bind_some, follow_one, Nat.zero_add]
          exact hj
        | _ => cases ht) hl
      simp only [hb]
      exact ⟨_, rfl⟩
  | .table l s b tr, cs, acc, schema, t, hf, hl => by
    rw [nodeLength] at hl
    rw [sortNode]
    obtain ⟨b', hb⟩ := sortEntries_ends fuel v b acc schema t hf hl
    split
    · simp only [hb]
      exact ⟨_, rfl⟩
    · exact ⟨_, rfl⟩
  | .pair l ks src n, cs, acc, schema, t, hf, hl => by
    rw [nodeLength, Nat.add_mul] at hl
    rw [sortNode]
    rcases followSchema_ok hr hc fuel (ks.map fun k => .key (keyOr v k)) t acc schema hf
      (by rw [List.length_map]; have := hr.of_le schema; omega) with h | ⟨t', s', h1, h2⟩
    · rw [h]; exact ⟨_, rfl⟩
    · rw [h2]
      simp only
      obtain ⟨n', hn⟩ := sortNode_ends fuel v n (l ++ n.trailing.toList) (acc ++ ks.map fun k => .key (keyOr v k)) s' t' h1 (by omega)
      simp only [hn]
      exact ⟨_, rfl⟩
theorem sortItems_ends (fuel : Nat) (v : TomlVersion) : (b : Body) → ∀ acc item i (ts : List (DValue Scalar)),
    (∀ j t, ts[j]? = some t → follow root (acc ++ [.index (i + j)]) = some t) → bodyLength b * (R + 2) + R + 1 < fuel →
    ∃ b', sortItems w fuel v acc item i ts b = .ok b'
  | .nil, acc, item, i, ts, hf, hl => ⟨_, by rw [sortItems]⟩
  | .dangling n cs rest, acc, item, i, ts, hf, hl => by
    rw [bodyLength] at hl
    obtain ⟨b', hb⟩ := sortItems_ends fuel v rest acc item i ts hf hl
    rw [sortItems, hb]
    exact ⟨_, rfl⟩
  | .item f n c rest, acc, item, i, ts, hf, hl => by
    rw [bodyLength, Nat.add_mul] at hl
    cases ts with
    | nil => exact ⟨_, by rw [sortItems]⟩
    | cons t ts =>
      obtain ⟨n', hn⟩ := sortNode_ends fuel v n [] (acc ++ [.index i]) item t (hf 0 t rfl) (by omega)
      obtain ⟨b', hb⟩ := sortItems_ends fuel v rest acc item (i + 1) ts (fun j t' hj => by
        have := hf (j + 1) t' hj
        rwa [show i + (j + 1) = i + 1 + j by omega] at this) (by omega)
      rw [sortItems, hn]
      simp only [hb]
      exact ⟨_, rfl⟩
theorem sortEntries_ends (fuel : Nat) (v : TomlVersion) : (b : Body) → ∀ acc schema t, follow root acc = some t →
    bodyLength b * (R + 2) + R + 1 < fuel → ∃ b', sortEntries w fuel v acc schema t b = .ok b'
  | .nil, acc, schema, t, hf, hl => ⟨_, by rw [sortEntries]⟩
  | .dangling n cs rest, acc, schema, t, hf, hl => by
    rw [bodyLength] at hl
    obtain ⟨b', hb⟩ := sortEntries_ends fuel v rest acc schema t hf hl
    rw [sortEntries, hb]
    exact ⟨_, rfl⟩
  | .item f n c rest, acc, schema, t, hf, hl => by
    rw [bodyLength, Nat.add_mul] at hl
    obtain ⟨n', hn⟩ := sortNode_ends fuel v n [] acc schema t hf (by omega)
    obtain ⟨b', hb⟩ := sortEntries_ends fuel v rest acc schema t hf (by omega)
    rw [sortEntries, hn]
    simp only [hb]
    exact ⟨_, rfl⟩
end

theorem sortEach_ends (fuel : Nat) (v : TomlVersion) (schema : Option S) : (ss : List Section) → ∀ prev,
    (∀ s ∈ ss, (2 * s.header.length + 1) * (R + 2) + R + 1 < fuel ∧ bodyLength s.body * (R + 2) + R + 1 < fuel) →
    ∃ ss', sortEach w fuel v schema root prev ss = .ok ss'
  | [], prev, _ => ⟨_, by rw [sortEach]⟩
  | s :: ss, prev, h => by
    obtain ⟨h1, h2⟩ := h s List.mem_cons_self
    obtain ⟨ss', ih⟩ := sortEach_ends fuel v schema ss (astSection v s :: prev) (fun s' hs' => h s' (List.mem_cons_of_mem _ hs'))
    have key : ∃ s', sortSection w fuel v schema root prev s = .ok s' := by
      unfold sortSection
      cases hh : (astSection v s).headerAccessors prev with
      | none => exact ⟨_, rfl⟩
      | some header =>
        simp only
        have hlen := section_length v prev s header hh
        have hm := Nat.mul_le_mul_right (R + 2) hlen
        rcases followSchema_ok hr hc fuel header root [] schema (by cases root <;> simp [follow])
          (by have := hr.of_le schema; omega) with h | ⟨t', s', q1, q2⟩
        · rw [h]; exact ⟨_, rfl⟩
        · rw [q2]
          simp only
          obtain ⟨b', hb⟩ := sortEntries_ends hr hc fuel v s.body ([] ++ header) s' t' q1 h2
          simp only [hb]
          exact ⟨_, rfl⟩
    obtain ⟨s', hs'⟩ := key
    rw [sortEach, hs', ih]
    exact ⟨_, rfl⟩
end

/-- A bound on the depth of the recursion. -/
def enough (R : Nat) (d : Doc) : Nat := docFuel d * (R + 2) + R + 2

theorem sortTree_ends {w : EditWorld S} {R : Nat} (hr : Ranked w R) (v : TomlVersion) (schema : Option S) (root : Green)
    (hc : NoClash w (convert v (docOf root)).1.value) {fuel : Nat} (hf : enough R (docOf root) ≤ fuel) :
    ∃ d, sortTree w fuel v schema root = .ok d := by
  unfold sortTree
  simp only
  unfold enough at hf
  have hroot : ∀ t : DValue Scalar, follow t [] = some t := fun t => by cases t <;> simp [follow]
  split
  · obtain ⟨b', hb⟩ := sortEntries_ends hr hc fuel v (docOf root).body [] schema (convert v (docOf root)).1.value (hroot _) (by
      have := Nat.mul_le_mul_right (R + 2) (Nat.le_of_lt (docFuel_body (docOf root)))
      omega)
    obtain ⟨ss', hs⟩ := sortEach_ends hr hc fuel v schema (docOf root).sections [] (fun s hs => by
      obtain ⟨q1, q2⟩ := docFuel_section (docOf root) s hs
      have q1 := Nat.mul_le_mul_right (R + 2) (Nat.le_of_lt q1)
      have q2 := Nat.mul_le_mul_right (R + 2) (Nat.le_of_lt q2)
      exact ⟨by omega, by omega⟩)
    simp only [hb, hs]
    exact ⟨_, rfl⟩
  · exact ⟨_, rfl⟩

end Tombi.Editing
