import Verif.Proofs.ValidateOutcome

/-!
# Equality of values, numbers and literals in the validator
-/

namespace Tombi.Validate
open Tombi.Spec.Validate

/-! ## Lists -/

theorem subset_of_nodup {α : Type} [DecidableEq α] : ∀ (xs ys : List α), xs.Nodup →
    (∀ x ∈ xs, x ∈ ys) → xs.length ≤ ys.length ∧ (ys.length ≤ xs.length → ∀ y ∈ ys, y ∈ xs)
  | [], ys, _, _ => ⟨Nat.zero_le _, fun h y hy => by
      cases ys with
      | nil => cases hy
      | cons => simp at h⟩
  | x :: xs, ys, hn, hs => by
    rw [List.nodup_cons] at hn
    have hx : x ∈ ys := hs x (by simp)
    have hl : (ys.erase x).length = ys.length - 1 := List.length_erase_of_mem hx
    have hpos : 0 < ys.length := by cases ys with
      | nil => cases hx
      | cons => simp
    obtain ⟨h1, h2⟩ := subset_of_nodup xs (ys.erase x) hn.2 (fun z hz => by
      have hne : z ≠ x := fun h => hn.1 (h ▸ hz)
      exact (List.mem_erase_of_ne hne).2 (hs z (by simp [hz])))
    simp only [List.length_cons]
    refine ⟨by omega, fun h y hy => ?_⟩
    by_cases hyx : y = x
    · simp [hyx]
    · exact List.mem_cons.2 (.inr (h2 (by omega) y ((List.mem_erase_of_ne hyx).2 hy)))

theorem lookup_mem {β : Type} (k : Key) (v : β) : ∀ kvs : List (Key × β), kvs.lookup k = some v →
    (k, v) ∈ kvs
  | [], h => by simp at h
  | (k', v') :: kvs, h => by
    simp only [List.lookup_cons] at h
    split at h
    · rename_i hk
      simp only [beq_iff_eq] at hk
      simp only [Option.some.injEq] at h
      subst hk h
      simp
    · exact List.mem_cons.2 (.inr (lookup_mem k v kvs h))

theorem lookup_none {β : Type} (k : Key) : ∀ kvs : List (Key × β), kvs.lookup k = none ↔
    k ∉ kvs.map Prod.fst
  | [] => by simp
  | (k', v') :: kvs => by
    simp only [List.lookup_cons]
    split
    · rename_i hk
      simp only [beq_iff_eq] at hk
      simp [hk]
    · rename_i hk
      simp only [beq_eq_false_iff_ne, ne_eq] at hk
      rw [lookup_none k kvs]
      simp [hk]

theorem lookup_of_mem {β : Type} (k : Key) (v : β) : ∀ kvs : List (Key × β),
    (kvs.map Prod.fst).Nodup → (k, v) ∈ kvs → kvs.lookup k = some v
  | [], _, h => by cases h
  | (k', v') :: kvs, hn, h => by
    simp only [List.map_cons, List.nodup_cons] at hn
    simp only [List.lookup_cons]
    rcases List.mem_cons.1 h with h | h
    · cases h
      simp
    · have hne : k ≠ k' := by
        intro hc
        apply hn.1
        rw [← hc]
        exact List.mem_map.2 ⟨_, h, rfl⟩
      have : (k == k') = false := by simp [hne]
      rw [this]
      exact lookup_of_mem k v kvs hn.2 h

/-! ## Equality -/

mutual
  /-- Every object in the value has unique keys. -/
  def Uniq : Value → Prop
    | .arr xs => UniqList xs
    | .tbl kvs => (kvs.map Prod.fst).Nodup ∧ UniqEntries kvs
    | _ => True
  def UniqList : List Value → Prop
    | [] => True
    | x :: xs => Uniq x ∧ UniqList xs
  def UniqEntries : List (Key × Value) → Prop
    | [] => True
    | (_, v) :: kvs => Uniq v ∧ UniqEntries kvs
end

theorem uniqEntries_mem : ∀ (kvs : List (Key × Value)) (k : Key) (v : Value), UniqEntries kvs →
    (k, v) ∈ kvs → Uniq v
  | [], _, _, _, h => by cases h
  | (k', v') :: kvs, k, v, hu, h => by
    simp only [UniqEntries] at hu
    rcases List.mem_cons.1 h with h | h
    · cases h
      exact hu.1
    · exact uniqEntries_mem kvs k v hu.2 h

theorem jsonEqEntries_keys : ∀ xs ys : List (Key × Value), jsonEqEntries xs ys = true →
    ∀ k ∈ xs.map Prod.fst, k ∈ ys.map Prod.fst
  | [], _, _, k, hk => by cases hk
  | (k', v) :: xs, ys, h, k, hk => by
    simp only [jsonEqEntries, Bool.and_eq_true] at h
    simp only [List.map_cons, List.mem_cons] at hk
    rcases hk with hk | hk
    · subst hk
      cases hl : ys.lookup k with
      | none => rw [hl] at h; simp at h
      | some w => exact List.mem_map.2 ⟨_, lookup_mem k w ys hl, rfl⟩
    · exact jsonEqEntries_keys xs ys h.2 k hk

mutual
  theorem jsonEq_iff : ∀ v w : Value, Uniq v → Uniq w → (jsonEq v w = true ↔ Same v w)
    | .bool a, w, _, _ => by cases w <;> simp [jsonEq, Same]
    | .int a, w, _, _ => by cases w <;> simp [jsonEq, Same]
    | .str a, w, _, _ => by cases w <;> simp [jsonEq, Same]
    | .arr xs, w, hv, hw => by
      cases w with
      | arr ys =>
        simp only [jsonEq, Same]
        simp only [Uniq] at hv hw
        exact jsonEqList_iff xs ys hv hw
      | _ => simp [jsonEq, Same]
    | .tbl xs, w, hv, hw => by
      cases w with
      | tbl ys =>
        simp only [jsonEq, Same, Bool.and_eq_true, beq_iff_eq]
        simp only [Uniq] at hv hw
        constructor
        · rintro ⟨hl, he⟩
          have hk := jsonEqEntries_keys xs ys he
          have hsub := subset_of_nodup (xs.map Prod.fst) (ys.map Prod.fst) hv.1 hk
          simp only [List.length_map] at hsub
          exact ⟨fun k => ⟨hk k, hsub.2 (by omega) k⟩,
            (jsonEqEntries_iff xs ys hv.2 hw.1 hw.2 hk).1 he⟩
        · rintro ⟨hk, he⟩
          have h1 := (subset_of_nodup (xs.map Prod.fst) (ys.map Prod.fst) hv.1 fun k h => (hk k).1 h).1
          have h2 := (subset_of_nodup (ys.map Prod.fst) (xs.map Prod.fst) hw.1 fun k h => (hk k).2 h).1
          simp only [List.length_map] at h1 h2
          exact ⟨by omega, (jsonEqEntries_iff xs ys hv.2 hw.1 hw.2 fun k h => (hk k).1 h).2 he⟩
      | _ => simp [jsonEq, Same]
  theorem jsonEqList_iff : ∀ xs ys : List Value, UniqList xs → UniqList ys →
      (jsonEqList xs ys = true ↔ SameList xs ys)
    | [], [], _, _ => by simp [jsonEqList, SameList]
    | [], _ :: _, _, _ => by simp [jsonEqList, SameList]
    | _ :: _, [], _, _ => by simp [jsonEqList, SameList]
    | x :: xs, y :: ys, hx, hy => by
      simp only [UniqList] at hx hy
      simp only [jsonEqList, SameList, Bool.and_eq_true, jsonEq_iff x y hx.1 hy.1,
        jsonEqList_iff xs ys hx.2 hy.2]
  theorem jsonEqEntries_iff : ∀ xs ys : List (Key × Value), UniqEntries xs →
      (ys.map Prod.fst).Nodup → UniqEntries ys → (∀ k ∈ xs.map Prod.fst, k ∈ ys.map Prod.fst) →
      (jsonEqEntries xs ys = true ↔ SameEntries xs ys)
    | [], ys, _, _, _, _ => by simp [jsonEqEntries, SameEntries]
    | (k, v) :: xs, ys, hx, hn, hy, hk => by
      simp only [UniqEntries] at hx
      simp only [jsonEqEntries, SameEntries, Bool.and_eq_true,
        jsonEqEntries_iff xs ys hx.2 hn hy fun k h => hk k (by simp only [List.map_cons, List.mem_cons]; exact .inr h)]
      have hkm := hk k (by simp)
      cases hl : ys.lookup k with
      | none => exact absurd hkm ((lookup_none k ys).1 hl)
      | some w =>
        have hm := lookup_mem k w ys hl
        have := jsonEq_iff v w hx.1 (uniqEntries_mem ys k w hy hm)
        simp only [this]
        constructor
        · rintro ⟨h1, h2⟩
          refine ⟨fun w' hw' => ?_, h2⟩
          have := lookup_of_mem k w' ys hn hw'
          rw [hl] at this
          cases this
          exact h1
        · rintro ⟨h1, h2⟩
          exact ⟨h1 w hm, h2⟩
end

/-! ## Plain values -/

mutual
  theorem plain_uniq (E : Env) : ∀ v, Plain E v → Uniq v
    | .bool _, _ => by simp [Uniq]
    | .int _, _ => by simp [Uniq]
    | .str _, _ => by simp [Uniq]
    | .arr xs, h => by
      simp only [Plain] at h
      simp only [Uniq]
      exact plainList_uniq E xs h
    | .tbl kvs, h => by
      simp only [Plain] at h
      simp only [Uniq]
      exact ⟨h.1, plainEntries_uniq E kvs h.2.2⟩
  theorem plainList_uniq (E : Env) : ∀ xs, PlainList E xs → UniqList xs
    | [], _ => by simp [UniqList]
    | x :: xs, h => by
      simp only [PlainList] at h
      simp only [UniqList]
      exact ⟨plain_uniq E x h.1, plainList_uniq E xs h.2⟩
  theorem plainEntries_uniq (E : Env) : ∀ kvs, PlainEntries E kvs → UniqEntries kvs
    | [], _ => by simp [UniqEntries]
    | (_, v) :: kvs, h => by
      simp only [PlainEntries] at h
      simp only [UniqEntries]
      exact ⟨plain_uniq E v h.1, plainEntries_uniq E kvs h.2⟩
end

mutual
  theorem plainLit_uniq : ∀ v, PlainLit v → Uniq v
    | .bool _, _ => by simp [Uniq]
    | .int _, _ => by simp [Uniq]
    | .str _, _ => by simp [Uniq]
    | .arr xs, h => by
      simp only [PlainLit] at h
      simp only [Uniq]
      exact plainLits_uniq xs h
    | .tbl kvs, h => by
      simp only [PlainLit] at h
      simp only [Uniq]
      exact ⟨h.1, plainLitEntries_uniq kvs h.2⟩
  theorem plainLits_uniq : ∀ xs, PlainLits xs → UniqList xs
    | [], _ => by simp [UniqList]
    | x :: xs, h => by
      simp only [PlainLits] at h
      simp only [UniqList]
      exact ⟨plainLit_uniq x h.1, plainLits_uniq xs h.2⟩
  theorem plainLitEntries_uniq : ∀ kvs, PlainLitEntries kvs → UniqEntries kvs
    | [], _ => by simp [UniqEntries]
    | (_, v) :: kvs, h => by
      simp only [PlainLitEntries] at h
      simp only [UniqEntries]
      exact ⟨plainLit_uniq v h.1, plainLitEntries_uniq kvs h.2⟩
end

theorem plainList_mem (E : Env) : ∀ xs x, PlainList E xs → x ∈ xs → Plain E x
  | [], _, _, h => by cases h
  | y :: ys, x, hp, h => by
    simp only [PlainList] at hp
    rcases List.mem_cons.1 h with h | h
    · subst h
      exact hp.1
    · exact plainList_mem E ys x hp.2 h

theorem plainEntries_mem (E : Env) : ∀ kvs k v, PlainEntries E kvs → (k, v) ∈ kvs → Plain E v
  | [], _, _, _, h => by cases h
  | (k', v') :: ys, k, v, hp, h => by
    simp only [PlainEntries] at hp
    rcases List.mem_cons.1 h with h | h
    · cases h
      exact hp.1
    · exact plainEntries_mem E ys k v hp.2 h

/-! ## Numbers -/

theorem roundF64_small {i : Int} (h : Small i) : roundF64 i = i := by
  simp only [Small] at h
  simp only [roundF64]
  split
  · rfl
  · rename_i hlt
    have he : i.natAbs = 2 ^ 53 := by omega
    have hl : i.natAbs.log2 = 53 := by rw [he]; decide +kernel
    rw [hl, he]
    have : (2 ^ 53 : Nat) / 2 ^ (53 - 52) = 2 ^ 52 := by decide
    have h2 : (2 ^ 53 : Nat) % 2 ^ (53 - 52) = 0 := by decide
    rw [this, h2]
    simp only [Nat.mul_zero]
    have : (decide (2 ^ (53 - 52) < 0) || decide (2 ^ (53 - 52) = 0) && decide (2 ^ 52 % 2 = 1)) = false := by
      decide
    rw [this]
    simp only [Bool.false_eq_true, if_false]
    split <;> omega

theorem notMultiple_iff {i m : Int} (hm : 0 < m) :
    (!(!((notMultiple i m).getD true))) = false ↔ ∃ c : Int, i = m * c := by
  have h0 : ¬m = 0 := by omega
  have h1 : ¬(i = -(2 ^ 63) ∧ m = -1) := by omega
  simp only [notMultiple, if_neg h0, if_neg h1, Option.getD_some, Bool.not_not]
  simp only [bne_eq_false_iff_eq]
  constructor
  · intro h
    exact ⟨i.tdiv m, by have := Int.mul_tdiv_add_tmod i m; rw [h] at this; omega⟩
  · rintro ⟨c, hc⟩
    rw [hc]
    exact Int.mul_tmod_right m c

/-! ## `const` and `enum` -/

theorem valueFor_litFor {E : Env} (k : Kind) (v w : Value) (hk : k.fits v = true) (hv : Plain E v)
    (hw : PlainLit w) :
    (∀ w', litFor k (some w) = some w' → (jsonEq (valueFor k v) w' = true ↔ Same v w)) ∧
    (litFor k (some w) = none → ¬Same v w) := by
  have hu := plain_uniq E v hv
  have hu' := plainLit_uniq w hw
  cases k <;> cases v <;> simp only [Kind.fits, Bool.false_eq_true] at hk <;> cases w <;>
    simp only [litFor, valueFor, Option.some.injEq, reduceCtorEq, false_implies, implies_true,
      and_true, Same, not_false_eq_true, forall_eq'] <;>
    try (exact (jsonEq_iff _ _ hu hu').trans (by simp only [Same]))
  · rename_i i j
    simp only [Plain] at hv
    simp only [PlainLit] at hw
    rw [roundF64_small hv, roundF64_small hw]
    simp [jsonEq]

/-- The type test of a literal says whether the view reads it. -/
theorem litFor_isSome (k : Kind) (v : Value) (l : Lit) (hk : k.fits v = true)
    (hl : litHasType l (tyOf v) = true) : ∃ w w', l = some w ∧ litFor k l = some w' := by
  cases k <;> cases v <;> simp only [Kind.fits, Bool.false_eq_true] at hk <;>
    rcases l with _ | (_ | _ | _ | _ | _) <;> simp [litHasType, tyOf] at hl <;>
    exact ⟨_, _, rfl, rfl⟩

theorem constViolated_iff {E : Env} {k : Kind} {n : Node} {v : Value} (hk : k.fits v = true)
    (hv : Plain E v) (hc : ∀ l, n.const = some l → ∃ w, l = some w ∧ PlainLit w)
    (ha : ∀ l, n.const = some l → litHasType l (tyOf v) = true) :
    constViolated k n v = false ↔ ∀ l, n.const = some l → ∃ w, l = some w ∧ Same v w := by
  simp only [constViolated]
  cases hn : n.const with
  | none => simp
  | some l =>
    obtain ⟨w, rfl, hw⟩ := hc l hn
    obtain ⟨w0, w', hw0, hlf⟩ := litFor_isSome k v (some w) hk (ha _ hn)
    have := (valueFor_litFor k v w hk hv hw).1 w' hlf
    simp only [hlf, Option.some.injEq, forall_eq', exists_eq_left', Bool.not_eq_false', this]

theorem enumViolated_iff {E : Env} {k : Kind} {n : Node} {v : Value} (hk : k.fits v = true)
    (hv : Plain E v) (hc : ∀ ls l, n.enum = some ls → l ∈ ls → ∃ w, l = some w ∧ PlainLit w) :
    enumViolated k n v = false ↔ ∀ ls, n.enum = some ls → ∃ w, some w ∈ ls ∧ Same v w := by
  simp only [enumViolated]
  cases hn : n.enum with
  | none => simp
  | some ls =>
    simp only [Option.some.injEq, forall_eq', Bool.not_eq_false', List.any_eq_true, List.mem_filterMap]
    constructor
    · rintro ⟨w', ⟨l, hl, hlf⟩, he⟩
      obtain ⟨w, rfl, hw⟩ := hc ls l hn hl
      exact ⟨w, hl, ((valueFor_litFor k v w hk hv hw).1 w' hlf).1 he⟩
    · rintro ⟨w, hl, hs⟩
      obtain ⟨w1, hw1, hw⟩ := hc ls _ hn hl
      cases hw1
      cases hlf : litFor k (some w) with
      | none => exact absurd hs ((valueFor_litFor k v w hk hv hw).2 hlf)
      | some w' => exact ⟨w', ⟨_, hl, hlf⟩, ((valueFor_litFor k v w hk hv hw).1 w' hlf).2 hs⟩

/-! ## Counting -/

theorem count_unique {α : Type} {P : α → Prop} {xs : List α} {c c' : Nat} (h : Count P xs c)
    (h' : Count P xs c') : c = c' := by
  induction h generalizing c' with
  | nil => cases h'; rfl
  | yes hp _ ih =>
    cases h' with
    | yes _ h => rw [ih h]
    | no hn _ => exact absurd hp hn
  | no hn _ ih =>
    cases h' with
    | yes hp _ => exact absurd hp hn
    | no _ h => exact ih h

/-- The number of true answers, if the answers say whether `P` holds. -/
theorem count_of_bools {α : Type} {P : α → Prop} : ∀ (xs : List α) (bs : List Bool),
    bs.length = xs.length → (∀ (i : Nat) x b, xs[i]? = some x → bs[i]? = some b → (b = true ↔ P x)) →
    Count P xs (bs.count true)
  | [], [], _, _ => .nil
  | x :: xs, b :: bs, hl, h => by
    have hx := h 0 x b rfl rfl
    have ih := count_of_bools xs bs (by simpa using hl) fun i x b hx hb => h (i + 1) x b hx hb
    cases b with
    | true =>
      rw [List.count_cons_self]
      exact .yes (hx.1 rfl) ih
    | false =>
      rw [List.count_cons_of_ne (by simp)]
      exact .no (fun hp => by have := hx.2 hp; cases this) ih

theorem containsCount_full (least : Nat) : ∀ (bs : List Bool) (c : Nat),
    containsCount true least bs c = c + bs.count true
  | [], c => by simp [containsCount]
  | b :: bs, c => by
    cases b with
    | true =>
      simp only [containsCount, if_true, Bool.not_true, Bool.false_and, Bool.false_eq_true, if_false,
        containsCount_full least bs, List.count_cons_self]
      omega
    | false =>
      simp only [containsCount, Bool.false_eq_true, if_false, containsCount_full least bs]
      rw [List.count_cons_of_ne (by simp)]

theorem containsCount_early (least : Nat) : ∀ (bs : List Bool) (c : Nat),
    containsCount false least bs c < least ↔ c + bs.count true < least
  | [], c => by simp [containsCount]
  | b :: bs, c => by
    cases b with
    | true =>
      simp only [containsCount, if_true, Bool.not_false, Bool.true_and, decide_eq_true_eq,
        List.count_cons_self]
      split
      · omega
      · rw [containsCount_early least bs]
        omega
    | false =>
      simp only [containsCount, Bool.false_eq_true, if_false, containsCount_early least bs]
      rw [List.count_cons_of_ne (by simp)]

/-! ## Duplicates -/

theorem duplicates_iff (xs : List Value) (hu : UniqList xs) : (duplicates xs).isEmpty = true ↔
    ∀ (i j : Nat) x y, xs[i]? = some x → xs[j]? = some y → i ≠ j → ¬Same x y := by
  have hmem : ∀ x ∈ xs, Uniq x := by
    intro x hx
    induction xs with
    | nil => cases hx
    | cons y ys ih =>
      simp only [UniqList] at hu
      rcases List.mem_cons.1 hx with h | h
      · subst h
        exact hu.1
      · exact ih hu.2 h
  simp only [List.isEmpty_iff, duplicates, List.filterMap_eq_nil_iff]
  constructor
  · intro h i j x y hi hj hne hs
    have := h (y, j) (List.mk_mem_zipIdx_iff_getElem?.2 hj)
    have hex : (xs.zipIdx.any fun (y', j') => j' != j && jsonEq y' y) = true := by
      rw [List.any_eq_true]
      refine ⟨(x, i), List.mk_mem_zipIdx_iff_getElem?.2 hi, ?_⟩
      simp only [Bool.and_eq_true, bne_iff_ne, ne_eq]
      exact ⟨hne, (jsonEq_iff x y (hmem x (List.mem_of_getElem? hi)) (hmem y (List.mem_of_getElem? hj))).2 hs⟩
    simp only [hex, if_true] at this
    cases this
  · rintro h ⟨y, j⟩ hj
    have hj' := List.mk_mem_zipIdx_iff_getElem?.1 hj
    have hne : ¬(xs.zipIdx.any fun (y', j') => j' != j && jsonEq y' y) = true := by
      rw [List.any_eq_true]
      rintro ⟨⟨x, i⟩, hi, hc⟩
      have hi' := List.mk_mem_zipIdx_iff_getElem?.1 hi
      simp only [Bool.and_eq_true, bne_iff_ne, ne_eq] at hc
      exact h i j x y hi' hj' hc.1
        ((jsonEq_iff x y (hmem x (List.mem_of_getElem? hi')) (hmem y (List.mem_of_getElem? hj'))).1 hc.2)
    simp only [hne, Bool.false_eq_true, if_false]

end Tombi.Validate
