import Verif.Proofs.Literals
/-! Acceptance of float literals. -/
namespace Tombi
open Rx Spec Literals

/-- every underscore stands between two digits -/
def Und (s : List Char) : Prop :=
  ∀ p q, s = p ++ '_' :: q → (∃ d, p.getLast? = some d ∧ isDigit d = true) ∧
    (∃ d, q.head? = some d ∧ isDigit d = true)

theorem badUnderscore_iff {s : List Char} (h0 : s.head? ≠ some '_') :
    (List.range s.length).any (badUnderscore s) = false ↔ Und s := by
  rw [List.any_eq_false]
  constructor
  · intro h p q hs
    have hp : p ≠ [] := by rintro rfl; rw [hs] at h0; exact h0 rfl
    have := h p.length (by simp [hs])
    have e0 : s[p.length]? = some '_' := by rw [hs]; simp
    have e1 : s[p.length - 1]? = p.getLast? := by
      rw [hs, List.getElem?_append_left (by have := List.length_pos_iff.mpr hp; omega), List.getLast?_eq_getElem?]
    have e2 : s[p.length + 1]? = q.head? := by
      rw [hs, List.getElem?_append_right (by omega)]
      simp [List.head?_eq_getElem?]
    unfold badUnderscore at this
    rw [e0, e1, e2] at this
    simp only [beq_self_eq_true, Bool.true_and] at this
    split at this
    · next d1 d2 h1 h2 =>
      simp at this
      exact ⟨⟨d1, h1, this.1⟩, ⟨d2, h2, this.2⟩⟩
    · simp at this
  · intro h i hi
    unfold badUnderscore
    by_cases hc : s[i]? = some '_'
    · have hi := List.mem_range.mp hi
      have hs : s = s.take i ++ '_' :: s.drop (i + 1) := by
        have : s[i] = '_' := by rw [List.getElem?_eq_getElem hi] at hc; exact Option.some.inj hc
        rw [← this, ← List.drop_eq_getElem_cons hi, List.take_append_drop]
      obtain ⟨⟨d1, h1, h2⟩, ⟨d2, h3, h4⟩⟩ := h _ _ hs
      have hi0 : i ≠ 0 := by
        rintro rfl; rw [List.take_zero] at h1; cases h1
      have e1 : s[i - 1]? = some d1 := by
        rw [← h1, List.getLast?_eq_getElem?, List.length_take, Nat.min_eq_left (by omega),
          List.getElem?_take_of_lt (by omega)]
      have e2 : s[i + 1]? = some d2 := by
        rw [← h3, List.head?_eq_getElem?, List.getElem?_drop]
      rw [e1, e2]
      simp [h2, h4]
    · simp [hc]

theorem isDigit_iff {c : Char} : isDigit c = true ↔ '0' ≤ c ∧ c ≤ '9' := by simp [isDigit]

/-- a character that is neither digit nor underscore separates -/
theorem und_sep {a b : List Char} {c : Char} (h1 : c ≠ '_') (h2 : isDigit c = false) :
    Und (a ++ c :: b) ↔ Und a ∧ Und b := by
  constructor
  · intro h
    constructor
    · intro p q hs
      obtain ⟨hl, d, hd, hdd⟩ := h p (q ++ c :: b) (by rw [hs]; simp)
      refine ⟨hl, ?_⟩
      cases q with
      | nil => simp at hd; subst hd; rw [h2] at hdd; cases hdd
      | cons x xs => exact ⟨d, by simpa using hd, hdd⟩
    · intro p q hs
      obtain ⟨⟨d, hd, hdd⟩, hr⟩ := h (a ++ c :: p) q (by rw [hs]; simp)
      refine ⟨?_, hr⟩
      cases p with
      | nil => simp at hd; subst hd; rw [h2] at hdd; cases hdd
      | cons x xs =>
        refine ⟨d, ?_, hdd⟩
        rw [List.getLast?_append] at hd
        simpa using hd
  · rintro ⟨ha, hb⟩ p q hs
    rcases List.append_eq_append_iff.mp hs with ⟨t, hp, ht⟩ | ⟨t, ha', ht⟩
    · cases t with
      | nil => simp at ht; exact absurd ht.1 h1
      | cons x xs =>
        simp at ht
        obtain ⟨rfl, rfl⟩ := ht
        obtain ⟨⟨d, hd, hdd⟩, hr⟩ := hb xs q rfl
        refine ⟨⟨d, ?_, hdd⟩, hr⟩
        rw [hp, List.getLast?_append]
        cases xs with
        | nil => cases hd
        | cons y ys => simpa using hd
    · cases t with
      | nil => simp at ht; exact absurd ht.1.symm h1
      | cons x xs =>
        simp at ht
        obtain ⟨rfl, rfl⟩ := ht
        obtain ⟨hl, d, hd, hdd⟩ := ha p xs ha'
        refine ⟨hl, ?_⟩
        cases xs with
        | nil => cases hd
        | cons y ys => exact ⟨d, by simpa using hd, hdd⟩

theorem und_nil : Und [] := by
  intro p q h
  have := congrArg List.length h
  simp at this

/-- a sequence of digits and underscores is well separated exactly when it is `zero-prefixable-int` -/
theorem und_digits {s : List Char} (h : (plus LexRx.digitU).Lang s) :
    Und s ↔ Toml.zeroPrefixableInt.Lang s := by
  have hch : ∀ c ∈ s, isDigit c = true ∨ c = '_' := by
    intro c hc
    have := Rx.over_lang (p := fun c => isDigit c || c == '_') (by decide) h c hc
    simpa using this
  have hne : s ≠ [] := by
    rintro rfl
    obtain ⟨u, v, h1, ⟨c, rfl, _⟩, _⟩ := h
    cases h1
  constructor
  · intro hu
    cases s with
    | nil => exact absurd rfl hne
    | cons c cs =>
      have hc : isDigit c = true := by
        rcases hch c (by simp) with h | rfl
        · exact h
        · obtain ⟨⟨d, hd, _⟩, _⟩ := hu [] cs rfl
          cases hd
      refine ⟨[c], cs, rfl, ⟨c, rfl, by simpa [inCls, isDigit] using hc⟩, ?_⟩
      clear h hne
      show StarL _ cs
      generalize hn : cs.length = n
      induction n using Nat.strongRecOn generalizing c cs with
      | ind n ih =>
        cases cs with
        | nil => exact .nil
        | cons d ds =>
          rcases hch d (by simp) with hd | rfl
          · refine .cons [d] ds (.inl ⟨d, rfl, by simpa [inCls, isDigit] using hd⟩) ?_
            refine ih ds.length (by subst hn; simp) d ds (fun x hx => hch x (List.mem_cons_of_mem _ hx)) ?_ hd rfl
            intro p q hs
            have := hu (c :: p) q (by rw [hs]; simp)
            refine ⟨?_, this.2⟩
            obtain ⟨e, he, hed⟩ := this.1
            cases p with
            | nil => cases hs; exact absurd hd (by decide)
            | cons x xs => exact ⟨e, by simpa using he, hed⟩
          · obtain ⟨_, e, he, hed⟩ := hu [c] ds rfl
            cases ds with
            | nil => cases he
            | cons x xs =>
              cases he
              refine .cons ['_', e] xs (.inr ⟨['_'], [e], rfl, lang_ch.mpr rfl, e, rfl,
                by simpa [inCls, isDigit] using hed⟩) ?_
              refine ih xs.length (by subst hn; simp; omega) e xs (fun y hy => hch y (List.mem_cons_of_mem _ (List.mem_cons_of_mem _ hy))) ?_ hed rfl
              intro p q hs
              have := hu (c :: '_' :: p) q (by rw [hs]; simp)
              refine ⟨?_, this.2⟩
              obtain ⟨f, hf, hfd⟩ := this.1
              cases p with
              | nil => cases hs; exact absurd hed (by decide)
              | cons x xs => exact ⟨f, by simpa using hf, hfd⟩
  · rintro ⟨u, v, rfl, ⟨c, rfl, hc⟩, hv⟩
    have hc : isDigit c = true := by simpa [inCls, isDigit] using hc
    clear h hch hne
    have hv : StarL (Toml.sep Toml.digit).Lang v := hv
    have key : ∀ {v : List Char}, StarL (Toml.sep Toml.digit).Lang v → ∀ c, isDigit c = true →
        Und (c :: v) := by
      intro v hv
      induction hv with
      | nil =>
        intro c hc p q hs
        cases p with
        | nil => cases hs; exact absurd hc (by decide)
        | cons x xs => have := congrArg List.length hs; simp at this
      | cons a b ha hb ih =>
        intro c hc p q hs
        rcases ha with ⟨d, rfl, hd⟩ | ⟨y, z, rfl, hy, d, rfl, hd⟩
        · have hd : isDigit d = true := by simpa [inCls, isDigit] using hd
          cases p with
          | nil => cases hs; exact absurd hc (by decide)
          | cons x xs =>
            simp at hs
            obtain ⟨rfl, hs⟩ := hs
            have := ih d hd xs q hs
            refine ⟨?_, this.2⟩
            obtain ⟨e, he, hed⟩ := this.1
            cases xs with
            | nil => cases he
            | cons y ys => exact ⟨e, by simpa using he, hed⟩
        · rw [show Toml.underscore = ch '_' from rfl, lang_ch] at hy
          subst hy
          have hd : isDigit d = true := by simpa [inCls, isDigit] using hd
          cases p with
          | nil => cases hs; exact absurd hc (by decide)
          | cons x xs =>
            simp at hs
            obtain ⟨rfl, hs⟩ := hs
            cases xs with
            | nil =>
              simp at hs
              subst hs
              exact ⟨⟨c, rfl, hc⟩, d, rfl, hd⟩
            | cons y ys =>
              simp at hs
              obtain ⟨rfl, hs⟩ := hs
              have := ih d hd ys q hs
              refine ⟨?_, this.2⟩
              obtain ⟨e, he, hed⟩ := this.1
              cases ys with
              | nil => cases he
              | cons y ys => exact ⟨e, by simpa using he, hed⟩
    exact key hv c hc

/-! ### the texts of a float -/

/-- digits and underscores, well separated -/
abbrev Z (s : List Char) : Prop := Toml.zeroPrefixableInt.Lang s

theorem Z.chars {s : List Char} (h : Z s) : ∀ c ∈ s, isDigit c = true ∨ c = '_' := by
  intro c hc
  have := Rx.over_lang (p := fun c => isDigit c || c == '_') (by decide) h c hc
  simpa using this

theorem Z.not_mem {s : List Char} (h : Z s) {c : Char} (h1 : isDigit c = false) (h2 : c ≠ '_') : c ∉ s := by
  intro hc
  rcases h.chars c hc with h | h
  · rw [h1] at h; cases h
  · exact h2 h

theorem Z.plusDigitU {s : List Char} (h : Z s) : (plus LexRx.digitU).Lang s := by
  obtain ⟨u, v, rfl, ⟨c, rfl, hc⟩, hv⟩ := h
  have key : ∀ {v : List Char}, StarL (Toml.sep Toml.digit).Lang v → StarL LexRx.digitU.Lang v := by
    intro v hv
    induction hv with
    | nil => exact .nil
    | cons a b ha _ ih =>
      rcases ha with ⟨d, rfl, hd⟩ | ⟨y, z, rfl, hy, d, rfl, hd⟩
      · exact .cons [d] b ⟨d, rfl, by simp [inCls] at hd ⊢; exact .inl hd⟩ ih
      · rw [show Toml.underscore = ch '_' from rfl, lang_ch] at hy
        subst hy
        exact .cons ['_'] (d :: b) ⟨'_', rfl, by decide⟩ (.cons [d] b ⟨d, rfl, by simp [inCls] at hd ⊢; exact .inl hd⟩ ih)
  exact ⟨[c], v, rfl, ⟨c, rfl, by simp [inCls] at hc ⊢; exact .inl hc⟩, key hv⟩

theorem Z.und {s : List Char} (h : Z s) : Und s := (und_digits h.plusDigitU).mpr h

theorem Z.head {s : List Char} (h : Z s) : ∃ c w, s = c :: w ∧ isDigit c = true := by
  obtain ⟨u, v, rfl, ⟨c, rfl, hc⟩, hv⟩ := h
  exact ⟨c, v, rfl, by simpa [inCls, isDigit] using hc⟩

theorem strip_append (a b : List Char) : stripUnderscores (a ++ b) = stripUnderscores a ++ stripUnderscores b := by
  simp [stripUnderscores]

def digits1 : Rx := plus (.cls [('0', '9')])

theorem Z.strip {s : List Char} (h : Z s) : digits1.Lang (stripUnderscores s) := by
  obtain ⟨c, w, rfl, hc⟩ := h.head
  have hcu : c ≠ '_' := by rintro rfl; exact absurd hc (by decide)
  rw [strip_cons hcu]
  have hall : ∀ d ∈ stripUnderscores w, isDigit d = true := by
    intro d hd
    have := mem_strip.mp hd
    exact (h.chars d (by simp [this.1])).resolve_right this.2
  refine ⟨[c], _, rfl, ⟨c, rfl, by simpa [inCls, isDigit] using hc⟩, ?_⟩
  show StarL _ (stripUnderscores w)
  generalize stripUnderscores w = l at hall
  induction l with
  | nil => exact .nil
  | cons d ds ih =>
    exact .cons [d] ds ⟨d, rfl, by simpa [inCls, isDigit] using hall d (by simp)⟩
      (ih fun x hx => hall x (by simp [hx]))

/-- an optional sign of the exponent -/
theorem und_sign {sg a : List Char} (hs : IsSign sg) : Und (sg ++ a) ↔ Und a := by
  rcases hs with rfl | rfl | rfl
  · rfl
  · exact (und_sep (a := []) (by decide) (by decide)).trans ⟨fun h => h.2, fun h => ⟨und_nil, h⟩⟩
  · exact (und_sep (a := []) (by decide) (by decide)).trans ⟨fun h => h.2, fun h => ⟨und_nil, h⟩⟩

theorem isSign_of {s : List Char} (h : (opt (.cls [('+', '+'), ('-', '-')])).Lang s) : IsSign s := by
  rcases h with ⟨c, rfl, hc⟩ | rfl
  · simp only [inCls, List.any_cons, List.any_nil, Bool.or_false, Bool.or_eq_true, Bool.and_eq_true,
      decide_eq_true_eq] at hc
    rcases hc with h | h
    · rw [← Char.le_antisymm h.1 h.2]; exact .inr (.inl rfl)
    · rw [← Char.le_antisymm h.1 h.2]; exact .inr (.inr rfl)
  · exact .inl rfl

theorem isExp_of {s : List Char} (h : (Rx.cls [('e', 'e'), ('E', 'E')]).Lang s) : s = ['e'] ∨ s = ['E'] := by
  obtain ⟨c, rfl, hc⟩ := h
  simp only [inCls, List.any_cons, List.any_nil, Bool.or_false, Bool.or_eq_true, Bool.and_eq_true,
    decide_eq_true_eq] at hc
  rcases hc with h | h
  · rw [← Char.le_antisymm h.1 h.2]; exact .inl rfl
  · rw [← Char.le_antisymm h.1 h.2]; exact .inr rfl

/-- the three forms of a float with digit groups `A`, `B`, `C` -/
inductive Form (P : List Char → Prop) (A : List Char) : (tail : List Char) → Prop where
  | frac (B : List Char) : P A → P B → Form P A ('.' :: B)
  | fracExp (B C : List Char) (e : Char) (sg : List Char) : (e = 'e' ∨ e = 'E') → IsSign sg → P A → P B → P C →
      Form P A ('.' :: (B ++ e :: (sg ++ C)))
  | exp (C : List Char) (e : Char) (sg : List Char) : (e = 'e' ∨ e = 'E') → IsSign sg → P A → P C →
      Form P A (e :: (sg ++ C))

theorem exp_sep {e : Char} (he : e = 'e' ∨ e = 'E') : e ≠ '_' ∧ isDigit e = false := by
  rcases he with rfl | rfl <;> decide

theorem form_of_lexer {body : List Char} (h : LexRx.float.Lang body) (hc : ':' ∉ body) :
    ∃ A t, body = A ++ t ∧ Form (plus LexRx.digitU).Lang A t := by
  obtain ⟨A, t, rfl, hA, ht⟩ := h
  simp only [List.mem_append, not_or] at hc
  refine ⟨A, t, rfl, ?_⟩
  rcases ht with ht | ht
  · obtain ⟨u1, v1, rfl, g1, u2, v2, rfl, g2, u3, v3, rfl, g3, u4, v4, rfl, g4, u5, v5, rfl, g5, rfl⟩ := ht
    simp only [List.mem_append, not_or] at hc
    have hsg := isSign_of g4
    obtain ⟨e, rfl, he⟩ : ∃ e, u3 = [e] ∧ (e = 'e' ∨ e = 'E') := by
      rcases isExp_of g3 with rfl | rfl
      · exact ⟨_, rfl, .inl rfl⟩
      · exact ⟨_, rfl, .inr rfl⟩
    rcases g1 with g1 | rfl
    · rw [lang_ch] at g1; subst g1; exact absurd (by simp) hc.2.1
    · rcases g2 with g2 | rfl
      · obtain ⟨p1, q1, rfl, k1, p2, q2, rfl, k2, p3, q3, rfl, k3, rfl⟩ := g2
        simp only [List.mem_append, not_or] at hc
        rcases k1 with k1 | rfl
        · rw [lang_ch] at k1; subst k1; exact absurd (by simp) hc.2.2.1.1
        · rw [lang_ch] at k2
          subst k2
          have := Form.fracExp (P := (plus LexRx.digitU).Lang) p3 u5 e u4 he hsg hA k3 g5
          simpa using this
      · have := Form.exp (P := (plus LexRx.digitU).Lang) u5 e u4 he hsg hA g5
        simpa using this
  · obtain ⟨u1, v1, rfl, g1, u2, v2, rfl, g2, rfl⟩ := ht
    rw [lang_ch] at g1
    subst g1
    have := Form.frac (P := (plus LexRx.digitU).Lang) u2 hA g2
    simpa using this

theorem Form.und {P : List Char → Prop} {A t : List Char} (h : Form P A t) (hP : ∀ s, P s → (Und s ↔ Z s)) :
    Und (A ++ t) ↔ Form Z A t := by
  cases h with
  | frac B hA hB =>
    rw [und_sep (by decide) (by decide), hP _ hA, hP _ hB]
    refine ⟨fun h => .frac _ h.1 h.2, fun h => ?_⟩
    generalize ht : '.' :: B = t at h
    cases h with
    | frac _ h1 h2 => cases ht; exact ⟨h1, h2⟩
    | fracExp B' C e sg he hs h1 h2 h3 =>
      cases ht
      refine ⟨h1, ?_⟩
      rw [← hP _ hB, und_sep (exp_sep he).1 (exp_sep he).2, und_sign hs]
      exact ⟨h2.und, h3.und⟩
    | exp C e sg he _ _ _ => cases ht; rcases he with h | h <;> cases h
  | fracExp B C e sg he hs hA hB hC =>
    rw [und_sep (by decide) (by decide), und_sep (exp_sep he).1 (exp_sep he).2, und_sign hs, hP _ hA, hP _ hB,
      hP _ hC]
    refine ⟨fun h => .fracExp _ _ _ _ he hs h.1 h.2.1 h.2.2, fun h => ?_⟩
    have hu : Und (A ++ '.' :: (B ++ e :: (sg ++ C))) := by
      generalize ht : '.' :: (B ++ e :: (sg ++ C)) = t at h ⊢
      cases h with
      | frac B' h1 h2 => rw [und_sep (by decide) (by decide)]; exact ⟨h1.und, h2.und⟩
      | fracExp B' C' e' sg' he' hs' h1 h2 h3 =>
        rw [und_sep (by decide) (by decide), und_sep (exp_sep he').1 (exp_sep he').2, und_sign hs']
        exact ⟨h1.und, h2.und, h3.und⟩
      | exp C' e' sg' he' hs' h1 h3 =>
        rw [und_sep (exp_sep he').1 (exp_sep he').2, und_sign hs']
        exact ⟨h1.und, h3.und⟩
    rwa [und_sep (by decide) (by decide), und_sep (exp_sep he).1 (exp_sep he).2, und_sign hs, hP _ hA, hP _ hB,
      hP _ hC] at hu
  | exp C e sg he hs hA hC =>
    rw [und_sep (exp_sep he).1 (exp_sep he).2, und_sign hs, hP _ hA, hP _ hC]
    refine ⟨fun h => .exp _ _ _ he hs h.1 h.2, fun h => ?_⟩
    have hu : Und (A ++ e :: (sg ++ C)) := by
      generalize ht : e :: (sg ++ C) = t at h ⊢
      cases h with
      | frac B' h1 h2 => rw [und_sep (by decide) (by decide)]; exact ⟨h1.und, h2.und⟩
      | fracExp B' C' e' sg' he' hs' h1 h2 h3 =>
        rw [und_sep (by decide) (by decide), und_sep (exp_sep he').1 (exp_sep he').2, und_sign hs']
        exact ⟨h1.und, h2.und, h3.und⟩
      | exp C' e' sg' he' hs' h1 h3 =>
        rw [und_sep (exp_sep he').1 (exp_sep he').2, und_sign hs']
        exact ⟨h1.und, h3.und⟩
    rwa [und_sep (exp_sep he).1 (exp_sep he).2, und_sign hs, hP _ hA, hP _ hC] at hu

theorem before_append {c : Char} {a b : List Char} (h : c ∉ a) : beforeChar c (a ++ c :: b) = a := by
  unfold beforeChar
  rw [List.takeWhile_append_of_pos (by intro x hx; simp; rintro rfl; exact h hx)]
  simp

theorem before_none {c : Char} {a : List Char} (h : c ∉ a) : beforeChar c a = a := by
  unfold beforeChar
  have := List.takeWhile_append_of_pos (p := (fun x => decide (x ≠ c))) (l₁ := a) (l₂ := [])
    (by intro x hx; simp; rintro rfl; exact h hx)
  simpa using this

/-- what the leading zero test looks at -/
theorem intNumber_form {sign A t : List Char} (hs : IsSign sign) (h : Form Z A t) :
    (intNumber (sign ++ (A ++ t)) = A ∧ t.head? ≠ some 'E') ∨
      (intNumber (sign ++ (A ++ t)) = A ++ t ∧ t.head? = some 'E') := by
  have hsg : ∀ {c : Char}, c ≠ '+' → c ≠ '-' → c ∉ sign := by
    intro c h1 h2 hc
    rcases hs with rfl | rfl | rfl <;> simp_all
  have hstrip : ∀ {x : List Char}, (∃ c w, x = c :: w ∧ isDigit c = true) →
      (match sign ++ x with
        | '+' :: r => r
        | '-' :: r => r
        | r => r) = x := by
    rintro x ⟨c, w, rfl, hc⟩
    rcases hs with rfl | rfl | rfl
    · rw [List.nil_append]
      split
      · next h => cases h; exact absurd hc (by decide)
      · next h => cases h; exact absurd hc (by decide)
      · rfl
    · rfl
    · rfl
  have hdot : ∀ {x y : List Char}, Z x → intNumber (sign ++ (x ++ '.' :: y)) = x := by
    intro x y hx
    unfold intNumber intSlice
    rw [if_pos (by simp), ← List.append_assoc, before_append (by
      simp only [List.mem_append, not_or]
      exact ⟨hsg (by decide) (by decide), hx.not_mem (by decide) (by decide)⟩)]
    exact hstrip hx.head
  cases h with
  | frac B hA hB => exact .inl ⟨hdot hA, by simp⟩
  | fracExp B C e sg he hs' hA hB hC => exact .inl ⟨hdot hA, by simp⟩
  | exp C e sg he hs' hA hC =>
    have hnd : ('.' : Char) ∉ sign ++ (A ++ e :: (sg ++ C)) := by
      simp only [List.mem_append, List.mem_cons, not_or]
      refine ⟨hsg (by decide) (by decide), hA.not_mem (by decide) (by decide), ?_, ?_,
        hC.not_mem (by decide) (by decide)⟩
      · rcases he with rfl | rfl <;> decide
      · rcases hs' with rfl | rfl | rfl <;> decide
    have e1 : intSlice (sign ++ (A ++ e :: (sg ++ C))) = beforeChar 'e' (sign ++ (A ++ e :: (sg ++ C))) := by
      unfold intSlice
      rw [if_neg (by simpa using hnd)]
    rcases he with rfl | rfl
    · left
      refine ⟨?_, by simp⟩
      unfold intNumber
      rw [e1, ← List.append_assoc, before_append (by
        simp only [List.mem_append, not_or]
        exact ⟨hsg (by decide) (by decide), hA.not_mem (by decide) (by decide)⟩)]
      exact hstrip hA.head
    · right
      refine ⟨?_, rfl⟩
      unfold intNumber
      rw [e1, before_none (by
        simp only [List.mem_append, List.mem_cons, not_or]
        refine ⟨hsg (by decide) (by decide), hA.not_mem (by decide) (by decide), by decide, ?_,
          hC.not_mem (by decide) (by decide)⟩
        rcases hs' with rfl | rfl | rfl <;> decide)]
      obtain ⟨c, w, rfl, hc⟩ := hA.head
      exact hstrip ⟨c, _, rfl, hc⟩

theorem strip_sign {sg : List Char} (h : IsSign sg) : stripUnderscores sg = sg := by
  rcases h with rfl | rfl | rfl <;> rfl

/-- the stripped text is one `f64::from_str` accepts -/
theorem form_syntax {sign A t : List Char} (hs : IsSign sign) (h : Form Z A t) :
    f64Syntax.matchAll (stripUnderscores (sign ++ (A ++ t))) = true := by
  rw [Rx.matchAll_iff]
  rw [strip_append, strip_append, strip_sign hs]
  refine ⟨sign, _, rfl, sign_of hs, .inr ?_⟩
  have hexp : ∀ {e : Char} {sg C : List Char}, (e = 'e' ∨ e = 'E') → IsSign sg → Z C →
      (seq [Rx.cls [('e', 'e'), ('E', 'E')], opt (.cls [('+', '+'), ('-', '-')]), plus (.cls [('0', '9')])]).Lang
        (stripUnderscores (e :: (sg ++ C))) := by
    intro e sg C he hs hC
    rw [strip_cons (exp_sep he).1, strip_append, strip_sign hs]
    refine ⟨[e], _, rfl, ⟨e, rfl, by rcases he with rfl | rfl <;> decide⟩, sg, _, rfl, sign_of hs, stripUnderscores C,
      [], (List.append_nil _).symm, hC.strip, rfl⟩
  have hnum : ∀ {B : List Char}, Z A → Z B → (seq [plus (.cls [('0', '9')]), ch '.', .star (.cls [('0', '9')])]).Lang
      (stripUnderscores A ++ '.' :: stripUnderscores B) := by
    intro B hA hB
    refine ⟨_, _, rfl, hA.strip, ['.'], _, rfl, lang_ch.mpr rfl, stripUnderscores B, [], (List.append_nil _).symm, ?_, rfl⟩
    obtain ⟨u, v, h1, h2, h3⟩ := hB.strip
    rw [h1]
    exact .cons u v h2 h3
  cases h with
  | frac B hA hB =>
    rw [strip_cons (by decide)]
    exact ⟨stripUnderscores A ++ '.' :: stripUnderscores B, [], (List.append_nil _).symm, .inr (.inl (hnum hA hB)),
      .inr rfl⟩
  | fracExp B C e sg he hs' hA hB hC =>
    rw [strip_cons (by decide), strip_append]
    exact ⟨stripUnderscores A ++ '.' :: stripUnderscores B, _, by simp, .inr (.inl (hnum hA hB)), .inl (hexp he hs' hC)⟩
  | exp C e sg he hs' hA hC =>
    exact ⟨stripUnderscores A, _, rfl, .inl hA.strip, .inl (hexp he hs' hC)⟩

/-- a digit group without a leading zero -/
theorem unsigned_of_Z {A : List Char} (h : Z A) :
    Toml.unsignedDecInt.Lang A ↔ ¬ (1 < A.length ∧ A.head? = some '0') := by
  obtain ⟨u, v, rfl, ⟨c, rfl, hc⟩, hv⟩ := h
  constructor
  · rintro (⟨d, hd, _⟩ | ⟨x, y, hxy, ⟨d, rfl, hd⟩, _⟩)
    · rw [hd]; simp
    · rw [hxy]
      rintro ⟨_, h0⟩
      cases h0
      exact absurd hd (by decide)
  · intro hn
    have hv : StarL (Toml.sep Toml.digit).Lang v := hv
    cases hv with
    | nil => exact .inl ⟨c, rfl, hc⟩
    | cons a b ha hb =>
      have hc0 : c ≠ '0' := by
        rintro rfl
        apply hn
        refine ⟨?_, rfl⟩
        have : a ≠ [] := by
          rintro rfl
          rcases ha with ⟨d, hd, _⟩ | ⟨y, z, hyz, hy, d, rfl, hd⟩
          · cases hd
          · have := congrArg List.length hyz; simp at this
        have := List.length_pos_iff.mpr this
        simp; omega
      refine .inr ⟨[c], a ++ b, rfl, ⟨c, rfl, ?_⟩, a, b, rfl, ha, hb⟩
      simp [inCls] at hc ⊢
      refine ⟨?_, hc.2⟩
      have h1 : 48 ≤ c.toNat := hc.1
      have h2 : c.toNat ≠ 48 := fun h => hc0 (Char.toNat_inj.mp h)
      show 49 ≤ c.toNat
      omega

theorem form_float {sign A t : List Char} (hs : IsSign sign) (h : Form Z A t) (hA : Toml.unsignedDecInt.Lang A) :
    Toml.float.Lang (sign ++ (A ++ t)) := by
  have hexp : ∀ {e : Char} {sg C : List Char}, (e = 'e' ∨ e = 'E') → IsSign sg → Z C →
      Toml.exp.Lang (e :: (sg ++ C)) := by
    intro e sg C he hs hC
    exact ⟨[e], _, rfl, ⟨e, rfl, by rcases he with rfl | rfl <;> decide⟩, sg, _, rfl, sign_of hs, C, [],
      (List.append_nil _).symm, hC, rfl⟩
  left
  rw [← List.append_assoc]
  refine ⟨sign ++ A, t, rfl, ⟨sign, A, rfl, sign_of hs, hA⟩, ?_⟩
  cases h with
  | frac B h1 hB => exact .inr ⟨'.' :: B, [], by simp, ⟨['.'], B, rfl, lang_ch.mpr rfl, hB⟩, .inr rfl⟩
  | fracExp B C e sg he hs' h1 hB hC =>
    exact .inr ⟨'.' :: B, e :: (sg ++ C), by simp, ⟨['.'], B, rfl, lang_ch.mpr rfl, hB⟩, .inl (hexp he hs' hC)⟩
  | exp C e sg he hs' h1 hC => exact .inl (hexp he hs' hC)

/-- the floats of the grammar -/
theorem float_form {mid : List Char} (h : Toml.float.Lang mid) :
    Toml.specialFloat.Lang mid ∨ ∃ sign A t, IsSign sign ∧ mid = sign ++ (A ++ t) ∧ Form Z A t ∧
      Toml.unsignedDecInt.Lang A := by
  rcases h with h | h
  · right
    obtain ⟨u, t, rfl, ⟨sign, A, rfl, hs, hA⟩, ht⟩ := h
    have hZ : Z A := by
      rcases hA with h | ⟨a, b, rfl, ⟨c, rfl, hc⟩, b1, b2, rfl, h1, h2⟩
      · exact ⟨A, [], by simp, h, .nil⟩
      · refine ⟨[c], b1 ++ b2, rfl, ⟨c, rfl, ?_⟩, .cons _ _ h1 h2⟩
        simp [inCls] at hc ⊢
        exact ⟨Char.le_trans (by decide) hc.1, hc.2⟩
    refine ⟨sign, A, t, isSign_of hs, by simp, ?_, hA⟩
    have hexp : ∀ {x : List Char}, Toml.exp.Lang x → ∃ e sg C, x = e :: (sg ++ C) ∧ (e = 'e' ∨ e = 'E') ∧
        IsSign sg ∧ Z C := by
      rintro x ⟨u1, v1, rfl, h1, u2, v2, rfl, h2, u3, v3, rfl, h3, rfl⟩
      rcases isExp_of h1 with rfl | rfl
      · exact ⟨'e', u2, u3, by simp, .inl rfl, isSign_of h2, h3⟩
      · exact ⟨'E', u2, u3, by simp, .inr rfl, isSign_of h2, h3⟩
    rcases ht with ht | ⟨x, y, rfl, ⟨d, B, rfl, hd, hB⟩, hy⟩
    · obtain ⟨e, sg, C, rfl, he, hsg, hC⟩ := hexp ht
      exact .exp _ _ _ he hsg hZ hC
    · rw [lang_ch] at hd
      subst hd
      rcases hy with hy | rfl
      · obtain ⟨e, sg, C, rfl, he, hsg, hC⟩ := hexp hy
        have := Form.fracExp B C e sg he hsg hZ hB hC
        simpa using this
      · have := Form.frac (P := Z) B hZ hB
        simpa using this
  · exact .inl h

theorem special_ok {mid : List Char} (h : Toml.specialFloat.Lang mid) : tryFromFloat mid = .ok mid := by
  obtain ⟨sign, w, rfl, hs, hw⟩ := h
  have hw : w = ['i', 'n', 'f'] ∨ w = ['n', 'a', 'n'] := by
    rcases hw with hw | hw
    · obtain ⟨a, b, rfl, h1, c, d, rfl, h2, e, f, rfl, h3, rfl⟩ := hw
      rw [lang_ch] at h1 h2 h3; subst h1 h2 h3; exact .inl rfl
    · obtain ⟨a, b, rfl, h1, c, d, rfl, h2, e, f, rfl, h3, rfl⟩ := hw
      rw [lang_ch] at h1 h2 h3; subst h1 h2 h3; exact .inr rfl
  rcases isSign_of hs with rfl | rfl | rfl <;> rcases hw with rfl | rfl <;> decide +kernel

/-- a zero followed by a capital `E` -/
def ZeroE (mid : List Char) : Prop := ∃ sign z, IsSign sign ∧ mid = sign ++ '0' :: 'E' :: z

theorem head_sign {sign A t : List Char} (hs : IsSign sign) (hA : ∃ c w, A = c :: w ∧ isDigit c = true) :
    (sign ++ (A ++ t)).head? ≠ some '_' := by
  obtain ⟨c, w, rfl, hc⟩ := hA
  rcases hs with rfl | rfl | rfl
  · simp; rintro rfl; exact absurd hc (by decide)
  · simp
  · simp

theorem zeroE_form {sign A t : List Char} (hs : IsSign sign) (h : Form Z A t) :
    ZeroE (sign ++ (A ++ t)) ↔ A = ['0'] ∧ t.head? = some 'E' := by
  have hA : Z A := by cases h <;> assumption
  constructor
  · rintro ⟨sg, z, hsg, heq⟩
    obtain ⟨c, w, rfl, hc⟩ := hA.head
    have : c :: w ++ t = '0' :: 'E' :: z := by
      have hcp : c ≠ '+' := by rintro rfl; exact absurd hc (by decide)
      have hcm : c ≠ '-' := by rintro rfl; exact absurd hc (by decide)
      rcases hs with rfl | rfl | rfl <;> rcases hsg with rfl | rfl | rfl <;> simp_all
    simp at this
    obtain ⟨rfl, hw⟩ := this
    cases w with
    | nil => exact ⟨rfl, by simp at hw; simp [hw]⟩
    | cons x xs =>
      simp at hw
      have := hA.chars x (by simp)
      rw [hw.1] at this
      exact absurd this (by decide)
  · rintro ⟨rfl, ht⟩
    cases t with
    | nil => cases ht
    | cons e t => cases ht; exact ⟨sign, t, hs, by simp⟩

/-- evaluation of a text of one of the forms -/
theorem tryFromFloat_form {sign A t : List Char} (hs : IsSign sign) (h : Form Z A t) :
    (Toml.unsignedDecInt.Lang A ∧ ¬ ZeroE (sign ++ (A ++ t)) →
      tryFromFloat (sign ++ (A ++ t)) = .ok (stripUnderscores (sign ++ (A ++ t))))
    ∧ (¬ (Toml.unsignedDecInt.Lang A ∧ ¬ ZeroE (sign ++ (A ++ t))) →
      tryFromFloat (sign ++ (A ++ t)) = .error .LeadingZero) := by
  have hA : Z A := by cases h <;> assumption
  have hund : Und (sign ++ (A ++ t)) := (und_sign hs).mpr ((h.und fun s hs => ⟨fun _ => hs, fun h => h.und⟩).mpr h)
  have hh := head_sign (t := t) hs hA.head
  have hb := (badUnderscore_iff hh).mpr hund
  have hlen : utf8Len A = A.length := utf8Len_ascii fun c hc => by
    rcases hA.chars c hc with h | rfl
    · have : c.toNat ≤ 57 := (isDigit_iff.mp h).2
      omega
    · decide
  have hlz : (utf8Len (intNumber (sign ++ (A ++ t))) > 1 && (intNumber (sign ++ (A ++ t))).head? == some '0') = true ↔
      ¬ (Toml.unsignedDecInt.Lang A ∧ ¬ ZeroE (sign ++ (A ++ t))) := by
    rw [unsigned_of_Z hA, zeroE_form hs h]
    simp only [Bool.and_eq_true, decide_eq_true_eq, beq_iff_eq]
    obtain ⟨c, w, rfl, hc⟩ := hA.head
    rcases intNumber_form hs h with ⟨h1, h2⟩ | ⟨h1, h2⟩
    · rw [h1, hlen]
      simp only [h2, and_false, not_false_eq_true, and_true, Classical.not_not]
    · rw [h1]
      have h3 : utf8Len (c :: w ++ t) > 1 := by
        have := length_le_utf8Len (c :: w ++ t)
        cases t with
        | nil => cases h2
        | cons e t => simp only [List.length_append, List.length_cons] at this; omega
      simp only [h3, true_and, h2, and_true]
      simp
      constructor
      · rintro rfl h
        by_cases hw : w = []
        · exact ⟨rfl, hw⟩
        · exact absurd rfl (h (by have := List.length_pos_iff.mpr hw; omega))
      · intro h
        apply Classical.byContradiction
        intro hc0
        have := h (fun _ => hc0)
        exact hc0 this.1
  unfold tryFromFloat
  rw [if_neg hh, hb]
  simp only [Bool.false_eq_true, if_false]
  constructor
  · intro hg
    rw [if_neg (fun h => hlz.mp h hg), if_pos (form_syntax hs h)]
  · intro hg
    rw [if_pos (hlz.mpr hg)]

/-- acceptance implies the tests -/
theorem tryFromFloat_ok {s o : List Char} (h : tryFromFloat s = .ok o) :
    Und s ∧ ':' ∉ s := by
  unfold tryFromFloat at h
  by_cases h1 : s.head? = some '_'
  · rw [if_pos h1] at h; cases h
  rw [if_neg h1] at h
  by_cases h2 : (List.range s.length).any (badUnderscore s) = true
  · rw [if_pos h2] at h; cases h
  rw [if_neg h2] at h
  refine ⟨(badUnderscore_iff h1).mp (Bool.eq_false_iff.mpr h2), ?_⟩
  by_cases h3 : (utf8Len (intNumber s) > 1 && (intNumber s).head? == some '0') = true
  · rw [if_pos h3] at h; cases h
  rw [if_neg h3] at h
  by_cases h4 : f64Syntax.matchAll (stripUnderscores s) = true
  · intro hc
    rw [Rx.matchAll_iff] at h4
    exact not_mem_lang (c := ':') (by decide) h4 (mem_strip.mpr ⟨hc, by decide⟩)
  · rw [if_neg h4] at h; cases h

/-- float tokens -/
theorem float_eval {mid : List Char} (h : (∃ sign, IsSign sign ∧ (mid = sign ++ ['i', 'n', 'f'] ∨
      mid = sign ++ ['n', 'a', 'n'])) ∨ ∃ sign body, IsSign sign ∧ mid = sign ++ body ∧
    LexRx.float.Lang body ∧ ∃ d w, body = d :: w ∧ isAsciiDigit d = true) :
    tryFromFloat mid ≠ .error .panic ∧ ∀ o, (tryFromFloat mid = .ok o ↔
      Toml.float.Lang mid ∧ ¬ ZeroE mid ∧ o = stripUnderscores mid) := by
  have hok : ∀ o, Toml.float.Lang mid ∧ ¬ ZeroE mid ∧ o = stripUnderscores mid → tryFromFloat mid = .ok o := by
    rintro o ⟨hf, hz, rfl⟩
    rcases float_form hf with hsp | ⟨sign, A, t, hs, rfl, hform, hA⟩
    · rw [special_ok hsp]
      congr 1
      symm
      apply List.filter_eq_self.mpr
      intro c hc
      have := not_mem_lang (c := '_') (by decide) hsp
      simp
      rintro rfl
      exact this hc
    · exact (tryFromFloat_form hs hform).1 ⟨hA, hz⟩
  rcases h with ⟨sign, hs, hw⟩ | ⟨sign, body, hs, rfl, hb, d, w, hbody, hd⟩
  · have hsp : Toml.specialFloat.Lang mid := by
      rcases hw with rfl | rfl
      · exact ⟨sign, _, rfl, sign_of hs, .inl ((Rx.matchAll_iff _ _).mp (by decide))⟩
      · exact ⟨sign, _, rfl, sign_of hs, .inr ((Rx.matchAll_iff _ _).mp (by decide))⟩
    have hz : ¬ ZeroE mid := by
      rintro ⟨sg, z, _, rfl⟩
      exact not_mem_lang (c := '0') (by decide) hsp (by simp)
    refine ⟨by rw [special_ok hsp]; simp, fun o => ⟨fun h => ?_, hok o⟩⟩
    have := hok _ ⟨.inr hsp, hz, rfl⟩
    rw [this] at h
    cases h
    exact ⟨.inr hsp, hz, rfl⟩
  · have hh : (sign ++ body).head? ≠ some '_' := by
      have := head_sign (t := []) hs ⟨d, w, hbody, hd⟩
      simpa using this
    refine ⟨?_, fun o => ⟨fun h => ?_, hok o⟩⟩
    · unfold tryFromFloat
      rw [if_neg hh]
      split
      · simp
      · split
        · simp
        · split <;> simp
    · obtain ⟨hund, hc⟩ := tryFromFloat_ok h
      have hc' : ':' ∉ body := fun h => hc (by simp [h])
      obtain ⟨A, t, rfl, hform⟩ := form_of_lexer hb hc'
      have hform' := (hform.und fun s hs => und_digits hs).mp ((und_sign hs).mp hund)
      have hf := tryFromFloat_form hs hform'
      by_cases hg : Toml.unsignedDecInt.Lang A ∧ ¬ ZeroE (sign ++ (A ++ t))
      · refine ⟨form_float hs hform' hg.1, hg.2, ?_⟩
        rw [hf.1 hg] at h
        cases h; rfl
      · rw [hf.2 hg] at h; cases h

end Tombi
