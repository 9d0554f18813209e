import Verif.Proofs.LocateCursor
/-! Proofs about `ancestors_at_position`. -/
namespace Tombi.Locate

/-! ### merging -/

/-- `zs` is made of `xs` and `ys`, each in its order. -/
inductive Woven {α : Type} : List α → List α → List α → Prop where
  | nil : Woven [] [] []
  | left {x : α} {xs ys zs : List α} : Woven xs ys zs → Woven (x :: xs) ys (x :: zs)
  | right {y : α} {xs ys zs : List α} : Woven xs ys zs → Woven xs (y :: ys) (y :: zs)

theorem Woven.symm {α : Type} {xs ys zs : List α} (h : Woven xs ys zs) : Woven ys xs zs := by
  induction h with
  | nil => exact .nil
  | left _ ih => exact .right ih
  | right _ ih => exact .left ih

theorem Woven.mem {α : Type} {xs ys zs : List α} (h : Woven xs ys zs) (z : α) : z ∈ zs ↔ z ∈ xs ∨ z ∈ ys := by
  induction h with
  | nil => simp
  | left _ ih => simp only [List.mem_cons, ih]; exact or_assoc.symm
  | right _ ih => simp only [List.mem_cons, ih]; exact or_left_comm

theorem Woven.pairwise {α : Type} {R : α → α → Prop} {xs ys zs : List α} (h : Woven xs ys zs) (h1 : xs.Pairwise R) (h2 : ys.Pairwise R)
    (h3 : ∀ x ∈ xs, ∀ y ∈ ys, R x y ∧ R y x) : zs.Pairwise R := by
  induction h with
  | nil => exact .nil
  | @left x xs ys zs hw ih =>
    obtain ⟨a, b⟩ := List.pairwise_cons.1 h1
    refine List.pairwise_cons.2 ⟨fun z hz => ?_, ih b h2 fun u hu v hv => h3 u (List.mem_cons_of_mem _ hu) v hv⟩
    rcases (hw.mem z).1 hz with hz | hz
    · exact a z hz
    · exact (h3 x List.mem_cons_self z hz).1
  | @right y xs ys zs hw ih =>
    obtain ⟨a, b⟩ := List.pairwise_cons.1 h2
    refine List.pairwise_cons.2 ⟨fun z hz => ?_, ih h1 b fun u hu v hv => h3 u hu v (List.mem_cons_of_mem _ hv)⟩
    rcases (hw.mem z).1 hz with hz | hz
    · exact (h3 z hz y List.mem_cons_self).2
    · exact a z hz

theorem woven_right {α : Type} (ys : List α) : Woven [] ys ys := by
  induction ys with
  | nil => exact .nil
  | cons y ys ih => exact .right ih

/-- Every element twice. -/
def double {α : Type} : List α → List α
  | [] => []
  | x :: xs => x :: x :: double xs

theorem mergeLoop_same : ∀ {xs : List NodeRef}, xs.Pairwise (fun a b => a.length ≤ b.length) → mergeLoop xs xs = double xs
  | [], _ => by rw [mergeLoop, double]
  | [x], _ => by rw [mergeLoop]; rfl
  | x :: x' :: xs, h => by
    obtain ⟨h1, h2⟩ := List.pairwise_cons.1 h
    rw [mergeLoop, if_pos (h1 x' List.mem_cons_self)]
    have : mergeLoop (x :: x' :: xs) (x' :: xs) = x :: mergeLoop (x' :: xs) (x' :: xs) := by
      rw [mergeLoop, if_pos (Nat.le_refl _)]
    rw [this, mergeLoop_same h2]
    rfl

/-- Two lists with the same end, whose other elements are shorter than those of the end. -/
theorem mergeLoop_woven {c : NodeRef} {cs : List NodeRef} (hs : (c :: cs).Pairwise fun a b => a.length ≤ b.length) :
    ∀ (n : Nat) (as bs : List NodeRef), as.length + bs.length ≤ n → (∀ x ∈ as, x.length < c.length) → (∀ x ∈ bs, x.length < c.length) →
      (∀ x y, (as ++ c :: cs).head? = some x → (bs ++ c :: cs).head? = some y → x.length ≤ y.length) →
      ∃ ws, Woven as bs ws ∧ mergeLoop (as ++ c :: cs) (bs ++ c :: cs) = ws ++ double (c :: cs)
  | 0, as, bs, hn, _, _, _ => by
    have ha : as = [] := List.eq_nil_of_length_eq_zero (by omega)
    have hb : bs = [] := List.eq_nil_of_length_eq_zero (by omega)
    subst ha; subst hb
    exact ⟨[], .nil, mergeLoop_same hs⟩
  | n + 1, [], bs, hn, ha, hb, hh => by
    cases bs with
    | nil => exact ⟨[], .nil, mergeLoop_same hs⟩
    | cons b bs =>
      have := hh c b rfl rfl
      have := hb b List.mem_cons_self
      omega
  | n + 1, a :: as, bs, hn, ha, hb, hh => by
    simp only [List.length_cons] at hn
    obtain ⟨x', xs, hx⟩ : ∃ x' xs, as ++ c :: cs = x' :: xs := by
      cases as with
      | nil => exact ⟨_, _, rfl⟩
      | cons u us => exact ⟨_, _, rfl⟩
    obtain ⟨y, ys, hy⟩ : ∃ y ys, bs ++ c :: cs = y :: ys := by
      cases bs with
      | nil => exact ⟨_, _, rfl⟩
      | cons u us => exact ⟨_, _, rfl⟩
    rw [List.cons_append, hx, hy, mergeLoop]
    have ha' : ∀ x ∈ as, x.length < c.length := fun x h => ha x (List.mem_cons_of_mem _ h)
    by_cases hle : y.length ≤ x'.length
    · rw [if_pos hle, ← hx, ← hy]
      obtain ⟨ws, w1, w2⟩ := mergeLoop_woven hs n bs as (by omega) hb ha' (by
        intro u v hu hv
        rw [hy] at hu; rw [hx] at hv
        simp only [List.head?_cons, Option.some.injEq] at hu hv
        rw [← hu, ← hv]; exact hle)
      rw [w2]
      exact ⟨a :: ws, .left w1.symm, rfl⟩
    · rw [if_neg hle, ← hx, ← hy]
      obtain ⟨ws, w1, w2⟩ := mergeLoop_woven hs n as bs (by omega) ha' hb (by
        intro u v hu hv
        rw [hx] at hu; rw [hy] at hv
        simp only [List.head?_cons, Option.some.injEq] at hu hv
        rw [← hu, ← hv]; omega)
      rw [w2]
      exact ⟨a :: ws, .left w1, rfl⟩

theorem mergeBy_woven {as bs cs : List NodeRef} (hc : cs ≠ []) (hs : cs.Pairwise fun a b => a.length ≤ b.length)
    (h : ∀ x, x ∈ as ∨ x ∈ bs → ∀ y ∈ cs, x.length < y.length) :
    ∃ ws, Woven as bs ws ∧ mergeBy (.between (as ++ cs) (bs ++ cs)) = ws ++ double cs := by
  cases cs with
  | nil => exact absurd rfl hc
  | cons c cs =>
    have ha : ∀ x ∈ as, x.length < c.length := fun x hx => h x (Or.inl hx) c List.mem_cons_self
    have hb : ∀ x ∈ bs, x.length < c.length := fun x hx => h x (Or.inr hx) c List.mem_cons_self
    obtain ⟨x, xs, hx⟩ : ∃ x xs, as ++ c :: cs = x :: xs := by
      cases as with
      | nil => exact ⟨_, _, rfl⟩
      | cons u us => exact ⟨_, _, rfl⟩
    obtain ⟨y, ys, hy⟩ : ∃ y ys, bs ++ c :: cs = y :: ys := by
      cases bs with
      | nil => exact ⟨_, _, rfl⟩
      | cons u us => exact ⟨_, _, rfl⟩
    rw [hx, hy, mergeBy]
    by_cases hle : y.length ≤ x.length
    · rw [if_pos hle, ← hx, ← hy]
      obtain ⟨ws, w1, w2⟩ := mergeLoop_woven hs _ bs as (Nat.le_refl _) hb ha (by
        intro u v hu hv
        rw [hy] at hu; rw [hx] at hv
        simp only [List.head?_cons, Option.some.injEq] at hu hv
        rw [← hu, ← hv]; exact hle)
      exact ⟨ws, w1.symm, w2⟩
    · rw [if_neg hle, ← hx, ← hy]
      exact mergeLoop_woven hs _ as bs (Nat.le_refl _) ha hb (by
        intro u v hu hv
        rw [hx] at hu; rw [hy] at hv
        simp only [List.head?_cons, Option.some.injEq] at hu hv
        rw [← hu, ← hv]; omega)

theorem dedup_id : ∀ {xs : List NodeRef}, xs.Pairwise (fun a b => a.path ≠ b.path) → dedup xs = xs
  | [], _ => by rw [dedup]
  | [x], _ => by rw [dedup]
  | x :: y :: xs, h => by
    obtain ⟨h1, h2⟩ := List.pairwise_cons.1 h
    rw [dedup, if_neg (h1 y List.mem_cons_self), dedup_id h2]

theorem dedup_double : ∀ {xs : List NodeRef}, xs.Pairwise (fun a b => a.path ≠ b.path) → dedup (double xs) = xs
  | [], _ => by rw [double, dedup]
  | [x], _ => by rw [double, double, dedup, if_pos rfl, dedup]
  | x :: y :: xs, h => by
    obtain ⟨h1, h2⟩ := List.pairwise_cons.1 h
    have ih := dedup_double h2
    rw [double] at ih
    rw [double, double, dedup, if_pos rfl, dedup, if_neg (h1 y List.mem_cons_self), ih]

theorem dedup_append : ∀ {ws cs : List NodeRef}, (ws ++ cs).Pairwise (fun a b => a.path ≠ b.path) → dedup (ws ++ double cs) = ws ++ cs
  | [], _, h => dedup_double h
  | [w], [], _ => by simp only [double, List.append_nil]; rw [dedup]
  | [w], c :: cs, h => by
    obtain ⟨h1, h2⟩ := List.pairwise_cons.1 h
    have ih := dedup_double (xs := c :: cs) h2
    rw [double] at ih
    rw [double, List.cons_append, List.nil_append, dedup, if_neg (h1 c List.mem_cons_self), ih]; rfl
  | w :: w' :: ws, cs, h => by
    obtain ⟨h1, h2⟩ := List.pairwise_cons.1 h
    rw [List.cons_append, List.cons_append, dedup, if_neg (h1 w' List.mem_cons_self), ← List.cons_append,
      dedup_append (ws := w' :: ws) h2]
    rfl

/-! ### the nodes around one token -/

mutual
theorem textLen_text : ∀ g : Green, textLen g = utf8Len g.text
  | .token k t => by rw [textLen, Green.text]
  | .node k cs => by rw [textLen, Green.text, textLens_text cs]
theorem textLens_text : ∀ cs : List Green, textLens cs = utf8Len (Green.texts cs)
  | [] => rfl
  | c :: cs => by rw [textLens, Green.texts, textLen_text c, textLens_text cs, utf8Len_append]
end

theorem textLens_mem {cs : List Green} {i : Nat} {c : Green} (h : cs[i]? = some c) : textLen c ≤ textLens cs := by
  induction cs generalizing i with
  | nil => cases h
  | cons d ds ih =>
    rw [textLens]
    cases i with
    | zero => simp only [List.getElem?_cons_zero, Option.some.injEq] at h; rw [h]; omega
    | succ i => have := ih (by simpa using h); omega

theorem textLens_two {cs : List Green} {i j : Nat} {c d : Green} (hi : cs[i]? = some c) (hj : cs[j]? = some d) (hne : i ≠ j) :
    textLen c + textLen d ≤ textLens cs := by
  induction cs generalizing i j with
  | nil => cases hi
  | cons e es ih =>
    rw [textLens]
    cases i with
    | zero =>
      cases j with
      | zero => exact absurd rfl hne
      | succ j =>
        simp only [List.getElem?_cons_zero, Option.some.injEq] at hi
        have := textLens_mem (cs := es) (i := j) (c := d) (by simpa using hj)
        rw [hi]; omega
    | succ i =>
      cases j with
      | zero =>
        simp only [List.getElem?_cons_zero, Option.some.injEq] at hj
        have := textLens_mem (cs := es) (i := i) (c := c) (by simpa using hi)
        rw [hj]; omega
      | succ j =>
        have := ih (i := i) (j := j) (by simpa using hi) (by simpa using hj) (by omega)
        omega

theorem elementAt_len : ∀ {path : List Nat} {g e : Green}, elementAt g path = some e → textLen e ≤ textLen g
  | [], g, e, h => by
    have : elementAt g [] = some g := by cases g <;> rw [elementAt]
    rw [this] at h; cases h; exact Nat.le_refl _
  | i :: path, .token k t, e, h => by rw [elementAt] at h; cases h
  | i :: path, .node k cs, e, h => by
    rw [elementAt] at h
    cases hc : cs[i]? with
    | none => rw [hc] at h; cases h
    | some c =>
      rw [hc] at h
      have h1 := elementAt_len h
      have h2 := textLens_mem hc
      rw [textLen]; omega

/-- The nodes on a way to a token. -/
theorem ancestorsOf_facts : ∀ {path : List Nat} {g : Green} {here : List Nat} {k : SyntaxKind} {t : List Char},
    elementAt g path = some (.token k t) →
    (∀ n, n ∈ ancestorsOf here g path ↔ ∃ q i rest cs, path = q ++ i :: rest ∧ n.path = here ++ q
        ∧ elementAt g q = some (.node n.kind cs) ∧ n.length = textLen (.node n.kind cs))
      ∧ (ancestorsOf here g path).Pairwise (fun a b => ¬ Within b a)
      ∧ (ancestorsOf here g path).Pairwise (fun a b => a.length ≤ b.length)
      ∧ ∀ n ∈ ancestorsOf here g path, n.length ≤ textLen g
  | [], .token k' t', here, k, t, h => by
    rw [ancestorsOf]
    refine ⟨fun n => ⟨(fun h => nomatch h), ?_⟩, .nil, .nil, (fun n h => nomatch h)⟩
    rintro ⟨q, i, rest, cs, h1, -⟩
    simp at h1
  | [], .node k' cs', here, k, t, h => by rw [elementAt] at h; cases h
  | i :: path, .token k' t', here, k, t, h => by rw [elementAt] at h; cases h
  | i :: path, .node k' cs', here, k, t, h => by
    rw [elementAt] at h
    cases hc : cs'[i]? with
    | none => rw [hc] at h; cases h
    | some c =>
      rw [hc] at h
      obtain ⟨h1, h2, h3, h4⟩ := ancestorsOf_facts (here := here ++ [i]) h
      have hlen := textLens_mem hc
      rw [ancestorsOf, hc]
      simp only []
      refine ⟨fun n => ?_, ?_, ?_, ?_⟩
      · rw [List.mem_append, List.mem_singleton, h1]
        constructor
        · rintro (⟨q, j, rest, cs, e1, e2, e3, e4⟩ | e)
          · exact ⟨i :: q, j, rest, cs, by rw [e1]; rfl, by rw [e2]; simp, by rw [elementAt, hc]; exact e3, e4⟩
          · exact ⟨[], i, path, cs', rfl, by rw [e, List.append_nil], by rw [e, elementAt], by rw [e]⟩
        · rintro ⟨q, j, rest, cs, e1, e2, e3, e4⟩
          cases q with
          | nil =>
            right
            rw [elementAt] at e3
            simp only [Option.some.injEq, Green.node.injEq] at e3
            obtain ⟨p', k'', l'⟩ := n
            simp only [List.append_nil] at e2 e3 e4
            rw [e2, e4, ← e3.1, ← e3.2]
          | cons i' q =>
            left
            simp only [List.cons_append, List.cons.injEq] at e1
            obtain ⟨rfl, e1⟩ := e1
            rw [elementAt, hc] at e3
            exact ⟨q, j, rest, cs, e1, by rw [e2]; simp, e3, e4⟩
      · refine List.pairwise_append.2 ⟨h2, List.pairwise_singleton _ _, fun a ha b hb => ?_⟩
        rw [List.mem_singleton] at hb
        obtain ⟨q, j, rest, cs, e1, e2, e3, e4⟩ := (h1 a).1 ha
        rintro ⟨r, hr⟩
        rw [hb, e2] at hr
        have := congrArg List.length hr
        simp at this
      · refine List.pairwise_append.2 ⟨h3, List.pairwise_singleton _ _, fun a ha b hb => ?_⟩
        rw [List.mem_singleton] at hb
        rw [hb]
        have := h4 a ha
        simp only [textLen]; omega
      · intro n hn
        rcases List.mem_append.1 hn with hn | hn
        · have := h4 n hn
          rw [textLen]; omega
        · rw [List.mem_singleton] at hn
          rw [hn]; exact Nat.le_refl _

/-! ### the nodes around two tokens -/

theorem not_within {here q r : List Nat} {i j : Nat} (h : i ≠ j) {a b : NodeRef} (ha : a.path = (here ++ [i]) ++ q)
    (hb : b.path = (here ++ [j]) ++ r) : ¬ Within b a := by
  rintro ⟨s, hs⟩
  rw [ha, hb] at hs
  simp only [List.append_assoc, List.append_cancel_left_eq, List.cons_append, List.nil_append, List.cons.injEq] at hs
  exact h hs.1.symm

theorem ancestorsOf_two : ∀ {pa pb : List Nat} {g : Green} {here : List Nat} {k k' : SyntaxKind} {t t' : List Char},
    elementAt g pa = some (.token k t) → elementAt g pb = some (.token k' t') → pa ≠ pb → t ≠ [] → t' ≠ [] →
    ∃ as bs cs, ancestorsOf here g pa = as ++ cs ∧ ancestorsOf here g pb = bs ++ cs ∧ cs ≠ []
      ∧ (∀ x, x ∈ as ∨ x ∈ bs → ∀ y ∈ cs, x.length < y.length)
      ∧ ∀ x ∈ as, ∀ y ∈ bs, ¬ Within x y ∧ ¬ Within y x
  | [], pb, .token k1 t1, here, k, k', t, t', ha, hb, hne, ht, ht' => by
    cases pb with
    | nil => exact absurd rfl hne
    | cons j pb => rw [elementAt] at hb; cases hb
  | [], pb, .node k1 cs1, here, k, k', t, t', ha, hb, hne, ht, ht' => by rw [elementAt] at ha; cases ha
  | i :: pa, pb, .token k1 t1, here, k, k', t, t', ha, hb, hne, ht, ht' => by rw [elementAt] at ha; cases ha
  | i :: pa, [], .node k1 cs1, here, k, k', t, t', ha, hb, hne, ht, ht' => by rw [elementAt] at hb; cases hb
  | i :: pa, j :: pb, .node k1 cs1, here, k, k', t, t', ha, hb, hne, ht, ht' => by
    rw [elementAt] at ha hb
    cases hc : cs1[i]? with
    | none => rw [hc] at ha; cases ha
    | some c =>
      cases hd : cs1[j]? with
      | none => rw [hd] at hb; cases hb
      | some d =>
        rw [hc] at ha
        rw [hd] at hb
        simp only [] at ha hb
        have fa := ancestorsOf_facts (here := here ++ [i]) ha
        have fb := ancestorsOf_facts (here := here ++ [j]) hb
        rw [ancestorsOf, ancestorsOf, hc, hd]
        simp only []
        by_cases hij : i = j
        · subst hij
          rw [hc] at hd
          cases hd
          obtain ⟨as, bs, cs, h1, h2, h3, h4, h5⟩ := ancestorsOf_two (here := here ++ [i]) ha hb (fun e => hne (by rw [e])) ht ht'
          refine ⟨as, bs, cs ++ [⟨here, k1, textLen (.node k1 cs1)⟩], by rw [h1, List.append_assoc], by rw [h2, List.append_assoc],
            by simp, fun x hx y hy => ?_, h5⟩
          rcases List.mem_append.1 hy with hy | hy
          · exact h4 x hx y hy
          · rw [List.mem_singleton] at hy
            obtain ⟨c0, hc0⟩ := List.exists_mem_of_ne_nil cs h3
            have l1 := h4 x hx c0 hc0
            have l2 := fa.2.2.2 c0 (by rw [h1]; exact List.mem_append_right _ hc0)
            have l3 := textLens_mem hc
            rw [hy]
            simp only [textLen]; omega
        · have two := textLens_two hc hd hij
          have pos : ∀ {e : Green} {p : List Nat} {kk : SyntaxKind} {tt : List Char}, elementAt e p = some (.token kk tt) → tt ≠ [] → 0 < textLen e := by
            intro e p kk tt h1 h2
            have := elementAt_len h1
            rw [textLen] at this
            have : 0 < utf8Len tt := by
              cases tt with
              | nil => exact absurd rfl h2
              | cons c cs => 
                have : utf8Len (c :: cs) = c.utf8Size + utf8Len cs := by simp [utf8Len]
                have := Char.utf8Size_pos c
                omega
            omega
          have p1 := pos ha ht
          have p2 := pos hb ht'
          refine ⟨_, _, _, rfl, rfl, by simp, fun x hx y hy => ?_, fun x hx y hy => ?_⟩
          · rw [List.mem_singleton] at hy
            rw [hy]
            simp only [textLen]
            rcases hx with hx | hx
            · have := fa.2.2.2 x hx; omega
            · have := fb.2.2.2 x hx; omega
          · obtain ⟨q, _, _, _, _, ea, _⟩ := (fa.1 x).1 hx
            obtain ⟨r, _, _, _, _, eb, _⟩ := (fb.1 y).1 hy
            exact ⟨not_within (fun e => hij e.symm) eb ea, not_within hij ea eb⟩

/-! ### places of tokens differ -/

mutual
theorem leaves_distinct (G : Segmenter) : ∀ (g : Green) (path : List Nat), (leaves G path g).Pairwise fun a b => a.val.1 ≠ b.val.1
  | .token k t, path => by rw [leaves]; exact List.pairwise_singleton _ _
  | .node k cs, path => by rw [leaves]; exact leavesL_distinct G cs path 0
theorem leavesL_distinct (G : Segmenter) : ∀ (cs : List Green) (path : List Nat) (i : Nat),
    (leavesL G path i cs).Pairwise fun a b => a.val.1 ≠ b.val.1
  | [], path, i => by rw [leavesL]; exact .nil
  | c :: cs, path, i => by
    rw [leavesL]
    refine List.pairwise_append.2 ⟨leaves_distinct G c _, leavesL_distinct G cs _ _, fun a ha b hb => ?_⟩
    obtain ⟨rest, h1, -⟩ := leaves_at G c (path ++ [i]) a ha
    obtain ⟨j, d, rest', -, h2, -⟩ := leavesL_at G cs path (i + 1) b hb
    rw [h1, h2]
    intro e
    simp only [List.append_assoc, List.append_cancel_left_eq, List.cons_append, List.nil_append, List.cons.injEq] at e
    omega
end

theorem ranges_distinct {xs : List (Piece Name)} {s : Position} (h : xs.Pairwise fun a b => a.val.1 ≠ b.val.1) :
    (ranges s xs).Pairwise fun a b => a.1.1 ≠ b.1.1 := by
  induction xs generalizing s with
  | nil => exact .nil
  | cons x xs ih =>
    obtain ⟨h1, h2⟩ := List.pairwise_cons.1 h
    refine List.pairwise_cons.2 ⟨fun y hy => ?_, ih h2⟩
    obtain ⟨z, z1, z2, -⟩ := mem_ranges hy
    have := h1 z z1
    rw [z2] at this
    exact this

end Tombi.Locate
