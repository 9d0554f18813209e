import Verif.Model.VersionSort
import Verif.Spec.Order
/-! Version sort is a total preorder. -/
namespace Tombi.VersionSort
open Spec

/-! ### comparisons -/

/-- what has to be checked for a total preorder -/
structure Cmp {α : Type} (c : α → α → Ordering) : Prop where
  swap : ∀ a b, c b a = (c a b).swap
  /-- the four transitivities: the smaller of two `≤`-results wins -/
  trans : ∀ a b d, c a b ≠ .gt → c b d ≠ .gt → c a d = (c a b).then (c b d)

theorem Cmp.refl {α : Type} {c : α → α → Ordering} (h : Cmp c) (a : α) : c a a = .eq := by
  have := h.swap a a
  cases e : c a a <;> rw [e] at this <;> first | rfl | cases this

theorem Cmp.eq_left {α : Type} {c : α → α → Ordering} (h : Cmp c) {a b : α} (d : α) (e : c a b = .eq) :
    c a d = c b d := by
  by_cases hb : c b d = .gt
  · have h1 : c d b = .lt := by rw [h.swap b d, hb]; rfl
    have h2 : c b a = .eq := by rw [h.swap a b, e]; rfl
    have h3 := h.trans d b a (by rw [h1]; simp) (by rw [h2]; simp)
    rw [h1] at h3
    rw [h.swap d a, h3, hb]; rfl
  · rw [h.trans a b d (by rw [e]; simp) hb, e]; rfl

theorem Cmp.total {α : Type} {c : α → α → Ordering} (h : Cmp c) : TotalPreorder c where
  refl := h.refl
  swap := h.swap
  trans a b d h1 h2 := by
    rw [h.trans a b d h1 h2]
    cases e1 : c a b <;> cases e2 : c b d <;> simp_all
  congr a b d e := h.eq_left d e

theorem cmp_nat : Cmp (fun a b : Nat => compare a b) where
  swap a b := by simp only [Nat.compare_swap]
  trans a b d h1 h2 := by
    simp only [Nat.compare_eq_ite_lt] at *
    repeat' split at h1
    all_goals repeat' split at h2
    all_goals first | contradiction | skip
    all_goals repeat' split
    all_goals first | rfl | omega

theorem Cmp.comap {α β : Type} {c : β → β → Ordering} (h : Cmp c) (f : α → β) : Cmp (fun a b => c (f a) (f b)) where
  swap _ _ := h.swap _ _
  trans _ _ _ := h.trans _ _ _

theorem Cmp.flip {α : Type} {c : α → α → Ordering} (h : Cmp c) : Cmp (fun a b => c b a) where
  swap _ _ := h.swap _ _
  trans a b d h1 h2 := by
    show c d a = (c b a).then (c d b)
    rw [h.trans d b a h2 h1]
    cases e1 : c b a <;> cases e2 : c d b <;> simp_all

theorem Cmp.andThen {α : Type} {c1 c2 : α → α → Ordering} (h1 : Cmp c1) (h2 : Cmp c2) :
    Cmp (fun a b => (c1 a b).then (c2 a b)) where
  swap a b := by rw [h1.swap a b, h2.swap a b, Ordering.swap_then]
  trans a b d e1 e2 := by
    have n1 : c1 a b ≠ .gt := fun h => e1 (by simp [h])
    have n2 : c1 b d ≠ .gt := fun h => e2 (by simp [h])
    simp only [h1.trans a b d n1 n2]
    cases x1 : c1 a b with
    | gt => exact absurd x1 n1
    | lt => rfl
    | eq =>
      cases x2 : c1 b d with
      | gt => exact absurd x2 n2
      | lt =>
        simp only [x1, Ordering.then] at e1 ⊢
        cases x3 : c2 a b <;> simp_all
      | eq =>
        simp only [x1, x2, Ordering.then] at e1 e2 ⊢
        exact h2.trans a b d e1 e2

/-- lexicographic comparison of lists -/
def lexList {α : Type} (c : α → α → Ordering) : List α → List α → Ordering
  | [], [] => .eq
  | [], _ :: _ => .lt
  | _ :: _, [] => .gt
  | a :: as, b :: bs => (c a b).then (lexList c as bs)

theorem Cmp.lex {α : Type} {c : α → α → Ordering} (h : Cmp c) : Cmp (lexList c) where
  swap a b := by
    induction a generalizing b with
    | nil => cases b <;> rfl
    | cons x a ih =>
      cases b with
      | nil => rfl
      | cons y b => rw [lexList, lexList, h.swap x y, ih b, Ordering.swap_then]
  trans a b d := by
    induction a generalizing b d with
    | nil =>
      intro e1 e2
      cases b with
      | nil => rfl
      | cons y b =>
        cases d with
        | nil => exact absurd rfl e2
        | cons z d => rfl
    | cons x a ih =>
      intro e1 e2
      cases b with
      | nil => exact absurd rfl e1
      | cons y b =>
        cases d with
        | nil => exact absurd rfl e2
        | cons z d =>
          rw [lexList] at e1 e2 ⊢
          rw [lexList, lexList]
          have n1 : c x y ≠ .gt := fun h => e1 (by simp [h])
          have n2 : c y z ≠ .gt := fun h => e2 (by simp [h])
          rw [h.trans x y z n1 n2]
          cases x1 : c x y with
          | gt => exact absurd x1 n1
          | lt => rfl
          | eq =>
            cases x2 : c y z with
            | gt => exact absurd x2 n2
            | lt =>
              simp only [x1, Ordering.then] at e1 ⊢
              cases x3 : lexList c a b <;> simp_all
            | eq =>
              simp only [x1, x2, Ordering.then] at e1 e2 ⊢
              exact ih b d e1 e2

theorem lexList_map {α β : Type} (c : β → β → Ordering) (f : α → β) (a b : List α) :
    lexList c (a.map f) (b.map f) = lexList (fun x y => c (f x) (f y)) a b := by
  induction a generalizing b with
  | nil => cases b <;> rfl
  | cons x a ih =>
    cases b with
    | nil => rfl
    | cons y b => simp only [List.map_cons, lexList, ih]

theorem cmpText_eq (a b : List Char) : cmpText a b = lexList (fun x y : Nat => compare x y) (a.map Char.toNat) (b.map Char.toNat) := by
  rw [lexList_map]
  induction a generalizing b with
  | nil => cases b <;> rfl
  | cons x a ih =>
    cases b with
    | nil => rfl
    | cons y b => simp only [cmpText, lexList, ih]

/-! ### chunks -/

/-- the chunks the iterator makes -/
def Chunk.Wf : Chunk → Prop
  | .str s => ∃ c r, s = c :: r ∧ isAsciiDigit c = false
  | .number _ _ s => ∃ c r, s = c :: r ∧ isAsciiDigit c = true
  | _ => True

theorem numericChunk_wf {s r : List Char} {k : Chunk} {c : Char} {cs : List Char} (hs : s = c :: cs)
    (hc : isAsciiDigit c = true) (h : numericChunk s = some (k, r)) : k.Wf := by
  subst hs
  unfold numericChunk at h
  simp only [] at h
  split at h
  · cases h
    exact ⟨c, cs.takeWhile isAsciiDigit, by rw [List.takeWhile_cons_of_pos hc], hc⟩
  · cases h

theorem next_wf {s r : List Char} {k : Chunk} (h : next s = some (k, r)) : k.Wf := by
  cases s with
  | nil => cases h
  | cons c cs =>
    rw [next] at h
    by_cases h1 : c = '_'
    · rw [if_pos h1] at h; cases h; trivial
    rw [if_neg h1] at h
    by_cases h2 : c = '-'
    · rw [if_pos h2] at h; cases h; trivial
    rw [if_neg h2] at h
    by_cases h3 : isAsciiDigit c = true
    · rw [if_pos h3] at h; exact numericChunk_wf rfl h3 h
    rw [if_neg h3] at h
    split at h
    · cases h; trivial
    · cases h; exact ⟨c, _, rfl, by simpa using h3⟩

theorem chunkLoop_wf (fuel : Nat) (s : List Char) : ∀ k ∈ chunkLoop fuel s, k.Wf := by
  induction fuel generalizing s with
  | zero => intro k hk; cases hk
  | succ n ih =>
    intro k hk
    rw [chunkLoop] at hk
    split at hk
    · cases hk
    · rename_i c r h
      rcases List.mem_cons.mp hk with rfl | hk
      · exact next_wf h
      · exact ih r k hk

theorem chunks_wf (s : List Char) : ∀ k ∈ chunks s, k.Wf := chunkLoop_wf _ s

/-- the numbers a chunk is compared by -/
def Chunk.key : Chunk → List Nat
  | .versionOp s => 0 :: s.map Char.toNat
  | .underscore => [1]
  | .hyphen => [1]
  | .str s => (match s with
      | c :: _ => if c.toNat < 48 then 2 else 4
      | [] => 2) :: s.map Char.toNat
  | .number v _ _ => [3, v]

/-- the leading zeros of a chunk -/
def Chunk.zeroCount : Chunk → Nat
  | .number _ z _ => z
  | _ => 0

abbrev cmpNat : Nat → Nat → Ordering := fun a b => compare a b

/-- comparison of chunks by their keys -/
def cmpKey (a b : Chunk) : Ordering := lexList cmpNat a.key b.key

/-- comparison by leading zeros: more zeros come first -/
def cmpZeros (a b : Chunk) : Ordering := cmpNat b.zeroCount a.zeroCount

theorem cmpNat_lt {a b : Nat} (h : a < b) : cmpNat a b = .lt := Nat.compare_eq_lt.mpr h
theorem cmpNat_gt {a b : Nat} (h : b < a) : cmpNat a b = .gt := Nat.compare_eq_gt.mpr h
theorem cmpNat_self (a : Nat) : cmpNat a a = .eq := Nat.compare_eq_eq.mpr rfl

/-- the key of a chunk begins with its rank -/
theorem lex_rank_lt {a b : Nat} {x y : List Nat} (h : a < b) : lexList cmpNat (a :: x) (b :: y) = .lt := by
  rw [lexList, cmpNat_lt h]; rfl
theorem lex_rank_gt {a b : Nat} {x y : List Nat} (h : b < a) : lexList cmpNat (a :: x) (b :: y) = .gt := by
  rw [lexList, cmpNat_gt h]; rfl
theorem lex_rank_eq {a : Nat} {x y : List Nat} : lexList cmpNat (a :: x) (a :: y) = lexList cmpNat x y := by
  rw [lexList, cmpNat_self]; rfl

theorem digit_range {c : Char} : isAsciiDigit c = true ↔ 48 ≤ c.toNat ∧ c.toNat ≤ 57 := by
  simp only [isAsciiDigit, inRange, Bool.and_eq_true, decide_eq_true_eq]
  exact Iff.rfl

theorem str_rank (c : Char) (r : List Char) :
    (Chunk.str (c :: r)).key = (if c.toNat < 48 then 2 else 4) :: (c :: r).map Char.toNat := rfl

theorem str_str {ca cb : List Char} (ha : (Chunk.str ca).Wf) (hb : (Chunk.str cb).Wf) :
    cmpText ca cb = cmpKey (.str ca) (.str cb) := by
  obtain ⟨c, r, rfl, hc⟩ := ha
  obtain ⟨d, q, rfl, hd⟩ := hb
  have hc' : ¬ (48 ≤ c.toNat ∧ c.toNat ≤ 57) := fun h => by rw [digit_range.mpr h] at hc; cases hc
  have hd' : ¬ (48 ≤ d.toNat ∧ d.toNat ≤ 57) := fun h => by rw [digit_range.mpr h] at hd; cases hd
  unfold cmpKey
  rw [str_rank, str_rank, cmpText_eq]
  by_cases h1 : c.toNat < 48
  · by_cases h2 : d.toNat < 48
    · rw [if_pos h1, if_pos h2, lex_rank_eq]
    · rw [if_pos h1, if_neg h2, lex_rank_lt (by omega), List.map_cons, List.map_cons]
      exact lex_rank_lt (by omega)
  · by_cases h2 : d.toNat < 48
    · rw [if_neg h1, if_pos h2, lex_rank_gt (by omega), List.map_cons, List.map_cons]
      exact lex_rank_gt (by omega)
    · rw [if_neg h1, if_neg h2, lex_rank_eq]

theorem str_num {ca cb : List Char} {v z : Nat} (ha : (Chunk.str ca).Wf) (hb : (Chunk.number v z cb).Wf) :
    cmpText ca cb = cmpKey (.str ca) (.number v z cb) ∧ cmpText cb ca = cmpKey (.number v z cb) (.str ca)
      ∧ cmpText ca cb ≠ .eq ∧ cmpText cb ca ≠ .eq := by
  obtain ⟨c, r, rfl, hc⟩ := ha
  obtain ⟨d, q, rfl, hd⟩ := hb
  have hc' : ¬ (48 ≤ c.toNat ∧ c.toNat ≤ 57) := fun h => by rw [digit_range.mpr h] at hc; cases hc
  have hd' := digit_range.mp hd
  unfold cmpKey
  rw [str_rank, cmpText_eq, cmpText_eq, List.map_cons, List.map_cons]
  show _ = lexList cmpNat _ [3, v] ∧ _ = lexList cmpNat [3, v] _ ∧ _
  by_cases h1 : c.toNat < 48
  · rw [if_pos h1, lex_rank_lt (b := 3) (by omega), lex_rank_gt (a := 3) (by omega),
      show lexList (fun x y : Nat => compare x y) (c.toNat :: r.map Char.toNat) (d.toNat :: q.map Char.toNat) = .lt
        from lex_rank_lt (by omega),
      show lexList (fun x y : Nat => compare x y) (d.toNat :: q.map Char.toNat) (c.toNat :: r.map Char.toNat) = .gt
        from lex_rank_gt (by omega)]
    simp
  · rw [if_neg h1, lex_rank_gt (b := 3) (by omega), lex_rank_lt (a := 3) (by omega),
      show lexList (fun x y : Nat => compare x y) (c.toNat :: r.map Char.toNat) (d.toNat :: q.map Char.toNat) = .gt
        from lex_rank_gt (by omega),
      show lexList (fun x y : Nat => compare x y) (d.toNat :: q.map Char.toNat) (c.toNat :: r.map Char.toNat) = .lt
        from lex_rank_lt (by omega)]
    simp

/-- the result for a recorded difference in leading zeros -/
def MoreLeadingZeros.result : MoreLeadingZeros → Ordering
  | .left => .lt
  | .right => .gt
  | .equal => .eq

theorem key_head_str (s : List Char) : ∃ n, (n = 2 ∨ n = 4) ∧ (Chunk.str s).key = n :: s.map Char.toNat := by
  refine ⟨_, ?_, rfl⟩
  cases s with
  | nil => left; rfl
  | cons c r => simp only []; split <;> simp

theorem sortLoop_eq (z : MoreLeadingZeros) (as bs : List Chunk) (ha : ∀ k ∈ as, k.Wf) (hb : ∀ k ∈ bs, k.Wf) :
    sortLoop z as bs = ((lexList cmpKey as bs).then z.result).then (lexList cmpZeros as bs) := by
  induction as generalizing bs z with
  | nil =>
    cases bs with
    | nil => cases z <;> rfl
    | cons b bs => cases z <;> rfl
  | cons a as ih =>
    cases bs with
    | nil => cases z <;> rfl
    | cons b bs =>
      have ih := fun z => ih z bs (fun k hk => ha k (by simp [hk])) (fun k hk => hb k (by simp [hk]))
      have wa := ha a (by simp)
      have wb := hb b (by simp)
      have hz : cmpZeros a b = .eq → ∀ o : Ordering, cmpKey a b = o → ∀ z : MoreLeadingZeros,
          ((lexList cmpKey (a :: as) (b :: bs)).then z.result).then (lexList cmpZeros (a :: as) (b :: bs))
            = o.then (sortLoop z as bs) := by
        intro h o ho z
        rw [ih z, lexList, lexList, h, ho]
        cases o <;> rfl
      have hlt : cmpKey a b = .lt → ∀ z : MoreLeadingZeros,
          ((lexList cmpKey (a :: as) (b :: bs)).then z.result).then (lexList cmpZeros (a :: as) (b :: bs)) = .lt := by
        intro h z; rw [lexList, h]; rfl
      have hgt : cmpKey a b = .gt → ∀ z : MoreLeadingZeros,
          ((lexList cmpKey (a :: as) (b :: bs)).then z.result).then (lexList cmpZeros (a :: as) (b :: bs)) = .gt := by
        intro h z; rw [lexList, h]; rfl
      cases a with
      | versionOp ca =>
        cases b with
        | versionOp cb =>
          rw [hz rfl (cmpText ca cb) (by rw [cmpText_eq]; exact lex_rank_eq)]
          cases z <;> rfl
        | str cb =>
          obtain ⟨n, hn, e⟩ := key_head_str cb
          rw [hlt (by rw [cmpKey, e]; exact lex_rank_lt (by omega))]
          cases z <;> rfl
        | _ => rw [hlt (lex_rank_lt (by omega))]; cases z <;> rfl
      | underscore =>
        cases b with
        | versionOp cb => rw [hgt (lex_rank_gt (by omega))]; cases z <;> rfl
        | underscore => rw [hz rfl .eq rfl]; cases z <;> rfl
        | hyphen => rw [hz rfl .eq rfl]; cases z <;> rfl
        | str cb =>
          obtain ⟨n, hn, e⟩ := key_head_str cb
          rw [hlt (by rw [cmpKey, e]; exact lex_rank_lt (by omega))]
          cases z <;> rfl
        | number v l s => rw [hlt (lex_rank_lt (by omega))]; cases z <;> rfl
      | hyphen =>
        cases b with
        | versionOp cb => rw [hgt (lex_rank_gt (by omega))]; cases z <;> rfl
        | underscore => rw [hz rfl .eq rfl]; cases z <;> rfl
        | hyphen => rw [hz rfl .eq rfl]; cases z <;> rfl
        | str cb =>
          obtain ⟨n, hn, e⟩ := key_head_str cb
          rw [hlt (by rw [cmpKey, e]; exact lex_rank_lt (by omega))]
          cases z <;> rfl
        | number v l s => rw [hlt (lex_rank_lt (by omega))]; cases z <;> rfl
      | str ca =>
        obtain ⟨n, hn, e⟩ := key_head_str ca
        cases b with
        | versionOp cb =>
          rw [hgt (by rw [cmpKey, e]; exact lex_rank_gt (by omega))]; cases z <;> rfl
        | underscore =>
          rw [hgt (by rw [cmpKey, e]; exact lex_rank_gt (by omega))]; cases z <;> rfl
        | hyphen =>
          rw [hgt (by rw [cmpKey, e]; exact lex_rank_gt (by omega))]; cases z <;> rfl
        | str cb =>
          rw [hz rfl (cmpText ca cb) (str_str wa wb).symm]; cases z <;> rfl
        | number v l s =>
          obtain ⟨e1, _, e3, _⟩ := str_num wa wb
          cases ht : cmpText ca s with
          | eq => exact absurd ht e3
          | lt =>
            rw [hlt (by rw [← e1, ht])]
            cases z <;> (rw [sortLoop, ht]; rfl)
          | gt =>
            rw [hgt (by rw [← e1, ht])]
            cases z <;> (rw [sortLoop, ht]; rfl)
      | number v l s =>
        cases b with
        | versionOp cb => rw [hgt (lex_rank_gt (by omega))]; cases z <;> rfl
        | underscore => rw [hgt (lex_rank_gt (by omega))]; cases z <;> rfl
        | hyphen => rw [hgt (lex_rank_gt (by omega))]; cases z <;> rfl
        | str cb =>
          obtain ⟨_, e2, _, e4⟩ := str_num wb wa
          cases ht : cmpText s cb with
          | eq => exact absurd ht e4
          | lt =>
            rw [hlt (by rw [← e2, ht])]
            cases z <;> (rw [sortLoop, ht]; rfl)
          | gt =>
            rw [hgt (by rw [← e2, ht])]
            cases z <;> (rw [sortLoop, ht]; rfl)
        | number v' l' s' =>
          have hk : cmpKey (.number v l s) (.number v' l' s') = compare v v' := by
            show lexList cmpNat [3, v] [3, v'] = _
            rw [lex_rank_eq, lexList]
            show (compare v v').then .eq = _
            cases compare v v' <;> rfl
          have key : sortLoop z (.number v l s :: as) (.number v' l' s' :: bs) = (match compare v v' with
              | .eq =>
                if l = l' then sortLoop z as bs
                else if z = .equal ∧ l > l' then sortLoop .left as bs
                else if z = .equal ∧ l < l' then sortLoop .right as bs
                else sortLoop z as bs
              | order => order) := by cases z <;> rfl
          rw [key]
          cases hv : compare v v' with
          | lt => rw [hlt (by rw [hk, hv])]
          | gt => rw [hgt (by rw [hk, hv])]
          | eq =>
            rw [hv] at hk
            simp only []
            rw [lexList, lexList, hk]
            have hzero : cmpZeros (.number v l s) (.number v' l' s') = compare l' l := rfl
            rw [hzero]
            by_cases h1 : l = l'
            · subst h1
              rw [if_pos rfl, ih z, Nat.compare_eq_eq.mpr rfl]
              rfl
            · rw [if_neg h1]
              by_cases hze : z = .equal
              · subst hze
                by_cases h2 : l > l'
                · rw [if_pos ⟨rfl, h2⟩, ih, Nat.compare_eq_lt.mpr h2]
                  show ((lexList cmpKey as bs).then .lt).then _ = ((lexList cmpKey as bs).then .eq).then .lt
                  cases lexList cmpKey as bs <;> rfl
                · rw [if_neg (by simp [h2]), if_pos ⟨rfl, by omega⟩, ih, Nat.compare_eq_gt.mpr (by omega)]
                  show ((lexList cmpKey as bs).then .gt).then _ = ((lexList cmpKey as bs).then .eq).then .gt
                  cases lexList cmpKey as bs <;> rfl
              · rw [if_neg (by simp [hze]), if_neg (by simp [hze]), ih]
                show ((lexList cmpKey as bs).then z.result).then _ = ((lexList cmpKey as bs).then z.result).then _
                cases z with
                | equal => exact absurd rfl hze
                | left => cases lexList cmpKey as bs <;> rfl
                | right => cases lexList cmpKey as bs <;> rfl

theorem versionSort_eq (a b : List Char) : versionSort a b
    = (lexList cmpKey (chunks a) (chunks b)).then (lexList cmpZeros (chunks a) (chunks b)) := by
  rw [versionSort, sortLoop_eq _ _ _ (chunks_wf a) (chunks_wf b)]
  show ((lexList cmpKey (chunks a) (chunks b)).then .eq).then _ = _
  cases lexList cmpKey (chunks a) (chunks b) <;> rfl

theorem versionSort_cmp : Cmp versionSort := by
  have h1 : Cmp (lexList cmpKey) := (cmp_nat.lex.comap Chunk.key).lex
  have h2 : Cmp (lexList cmpZeros) := (cmp_nat.flip.comap Chunk.zeroCount).lex
  have h3 := (h1.comap chunks).andThen (h2.comap chunks)
  have e : versionSort = fun a b => (lexList cmpKey (chunks a) (chunks b)).then (lexList cmpZeros (chunks a) (chunks b)) := by
    funext a b; exact versionSort_eq a b
  rw [e]
  exact h3

end Tombi.VersionSort
