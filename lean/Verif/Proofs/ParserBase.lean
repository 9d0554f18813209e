import Verif.Model.Tree
import Verif.Proofs.TokenSet
import Verif.Spec.Tree
/-!
Proof infrastructure for the parser: what a run of a parser method does to the parser (`Ran`), its
invariant (`Inv`) and the primitive methods.
-/
namespace Tombi
open SyntaxKind

/-- total correctness: `m` ends normally in a result and parser satisfying `Q` -/
def wp {α : Type} (m : PM α) (Q : α → Parser → Prop) (p : Parser) : Prop :=
  ∃ a p', m p = .ok (a, p') ∧ Q a p'

namespace wp

theorem bind {α β : Type} {m : PM α} {f : α → PM β} {Q : β → Parser → Prop} {p : Parser}
    (h : wp m (fun a p' => wp (f a) Q p') p) : wp (m >>= f) Q p := by
  obtain ⟨a, p', h1, b, p'', h2, hq⟩ := h
  refine ⟨b, p'', ?_, hq⟩
  show (m p >>= fun x => f x.1 x.2) = _
  rw [h1]
  exact h2

theorem pure {α : Type} {a : α} {Q : α → Parser → Prop} {p : Parser} (h : Q a p) :
    wp (Pure.pure a) Q p := ⟨a, p, rfl, h⟩

theorem mono {α : Type} {m : PM α} {Q R : α → Parser → Prop} {p : Parser} (h : wp m Q p)
    (hqr : ∀ a p', Q a p' → R a p') : wp m R p := by
  obtain ⟨a, p', h1, hq⟩ := h
  exact ⟨a, p', h1, hqr _ _ hq⟩

theorem get {Q : Parser → Parser → Prop} {p : Parser} (h : Q p p) :
    wp (MonadState.get : PM Parser) Q p := ⟨p, p, rfl, h⟩

theorem read {α : Type} {f : Parser → α} {Q : α → Parser → Prop} {p : Parser} (h : Q (f p) p) :
    wp (PM.read f) Q p := ⟨f p, p, rfl, h⟩

theorem modify {f : Parser → Parser} {Q : Unit → Parser → Prop} {p : Parser} (h : Q () (f p)) :
    wp (_root_.modify f : PM Unit) Q p := ⟨(), f p, rfl, h⟩

theorem set {q : Parser} {Q : Unit → Parser → Prop} {p : Parser} (h : Q () q) :
    wp (MonadStateOf.set q : PM Unit) Q p := ⟨(), q, rfl, h⟩

theorem seq {α β : Type} {m : PM α} {f : α → PM β} {Q : α → Parser → Prop}
    {R : β → Parser → Prop} {p : Parser} (h : wp m Q p)
    (hf : ∀ a p', Q a p' → wp (f a) R p') : wp (m >>= f) R p := bind (h.mono hf)

end wp

/-! ### Tokens -/

/-- the tokens that are not trivia -/
def sig (ts : List Token) : List Token := ts.filter (fun t => !t.kind.isTrivia)

@[simp] theorem sig_nil : sig [] = [] := rfl
@[simp] theorem sig_append (a b : List Token) : sig (a ++ b) = sig a ++ sig b := by simp [sig]
theorem sig_cons_triv {t : Token} {ts : List Token} (h : t.kind.isTrivia = true) :
    sig (t :: ts) = sig ts := by simp [sig, h]
theorem sig_cons_sig {t : Token} {ts : List Token} (h : t.kind.isTrivia = false) :
    sig (t :: ts) = t :: sig ts := by simp [sig, h]
theorem sig_eq_nil {ts : List Token} : sig ts = [] ↔ ∀ t ∈ ts, t.kind.isTrivia = true := by
  simp [sig]

namespace Parser

/-- tokens from the current position on -/
def rest (p : Parser) : List Token := p.input.drop p.pos

/-- number of significant tokens left before the end-of-file token -/
def rem (p : Parser) : Nat := (sig p.rest).length - 1

theorem nthIndexFrom_triv {t : Token} {ts : List Token} (h : t.kind.isTrivia = true) (pos n : Nat) :
    nthIndexFrom (t :: ts) pos n = nthIndexFrom ts (pos + 1) n := by
  cases n <;> simp [nthIndexFrom, h]

theorem nthIndexFrom_zero {t : Token} {ts : List Token} (h : t.kind.isTrivia = false) (pos : Nat) :
    nthIndexFrom (t :: ts) pos 0 = pos := by simp [nthIndexFrom, h]

theorem nthIndexFrom_succ {t : Token} {ts : List Token} (h : t.kind.isTrivia = false) (pos n : Nat) :
    nthIndexFrom (t :: ts) pos (n + 1) = nthIndexFrom ts (pos + 1) n := by simp [nthIndexFrom, h]

theorem nthIndexFrom_spec (L : List Token) (pos n : Nat) :
    (∃ A t B, L = A ++ t :: B ∧ t.kind.isTrivia = false ∧ (sig A).length = n ∧
      nthIndexFrom L pos n = pos + A.length) ∨
    ((sig L).length ≤ n ∧ nthIndexFrom L pos n = pos + L.length) := by
  induction L generalizing pos n with
  | nil => right; simp [nthIndexFrom]
  | cons t ts ih =>
    by_cases ht : t.kind.isTrivia = true
    · rw [nthIndexFrom_triv ht]
      rcases ih (pos + 1) n with ⟨A, u, B, h1, h2, h3, h4⟩ | ⟨h1, h2⟩
      · left
        refine ⟨t :: A, u, B, by simp [h1], h2, by rw [sig_cons_triv ht]; exact h3, ?_⟩
        rw [h4]; simp; omega
      · right
        rw [sig_cons_triv ht]
        refine ⟨h1, ?_⟩
        rw [h2]; simp; omega
    · have ht' : t.kind.isTrivia = false := by simpa using ht
      cases n with
      | zero => left; exact ⟨[], t, ts, rfl, ht', rfl, nthIndexFrom_zero ht' pos⟩
      | succ n =>
        rw [nthIndexFrom_succ ht']
        rcases ih (pos + 1) n with ⟨A, u, B, h1, h2, h3, h4⟩ | ⟨h1, h2⟩
        · left
          refine ⟨t :: A, u, B, by simp [h1], h2, by rw [sig_cons_sig ht']; simp [h3], ?_⟩
          rw [h4]; simp; omega
        · right
          rw [sig_cons_sig ht']
          refine ⟨by simpa using h1, ?_⟩
          rw [h2]; simp; omega

theorem nthIndexFrom_lt {L : List Token} {n : Nat} (h : n < (sig L).length) (pos : Nat) :
    ∃ A t B, L = A ++ t :: B ∧ t.kind.isTrivia = false ∧ (sig A).length = n ∧
      nthIndexFrom L pos n = pos + A.length := by
  rcases nthIndexFrom_spec L pos n with h' | ⟨h1, _⟩
  · exact h'
  · omega

theorem nthIndexFrom_append (A B : List Token) (pos n : Nat) :
    nthIndexFrom (A ++ B) pos (n + (sig A).length) = nthIndexFrom B (pos + A.length) n := by
  induction A generalizing pos with
  | nil => simp
  | cons t ts ih =>
    by_cases ht : t.kind.isTrivia = true
    · rw [sig_cons_triv ht, List.cons_append, nthIndexFrom_triv ht, ih]
      congr 1; simp; omega
    · have ht' : t.kind.isTrivia = false := by simpa using ht
      rw [sig_cons_sig ht', List.cons_append, List.length_cons, ← Nat.add_assoc,
        nthIndexFrom_succ ht', ih]
      congr 1; simp; omega

/-- `nth_token` reads the significant tokens -/
theorem nthToken_eq (p : Parser) (n : Nat) :
    p.nthToken n = (sig p.rest)[n]?.getD Token.eof := by
  unfold nthToken nthIndex
  have hd : ∀ i, p.input[p.pos + i]? = p.rest[i]? := by intro i; simp [rest]
  rcases nthIndexFrom_spec (p.input.drop p.pos) p.pos n with ⟨A, t, B, h1, h2, h3, h4⟩ | ⟨h1, h2⟩
  · rw [h4, hd]
    have h1' : p.rest = A ++ t :: B := h1
    rw [h1', List.getElem?_append_right (by omega)]
    simp only [sig_append, sig_cons_sig h2]
    rw [List.getElem?_append_right (by omega), h3]
    simp
  · rw [h2, hd]
    have : (sig p.rest)[n]? = none := by
      rw [List.getElem?_eq_none_iff]; exact h1
    rw [this]
    simp [rest]

theorem nth_eq (p : Parser) (n : Nat) :
    p.nth n = ((sig p.rest)[n]?.getD Token.eof).kind := by
  unfold nth; rw [nthToken_eq p]

end Parser

/-! ### Events -/

/-- 1 for the kinds that count as a level of nesting -/
def nestOf (k : SyntaxKind) : Nat := if k = ARRAY ∨ k = INLINE_TABLE then 1 else 0

/-- A list of events in which nodes are properly nested, at most `h` deep, with at most `n` arrays
and inline tables inside each other, and exactly `e` errors. -/
inductive Balanced : Nat → Nat → Nat → List Event → Prop where
  | nil (h n : Nat) : Balanced h n 0 []
  | tok {h n e : Nat} {es : List Event} (k : SyntaxKind) (m : Nat) : 0 < m → m ≤ 2 →
      Balanced h n e es → Balanced h n e (.token k m :: es)
  | err {h n e : Nat} {es : List Event} (x : PError) : Balanced h n e es →
      Balanced h n (e + 1) (.error x :: es)
  | node {h n h' n' e e' : Nat} {body es : List Event} (k : SyntaxKind) : k ≠ TOMBSTONE →
      h + 1 ≤ h' → n + nestOf k ≤ n' → Balanced h n e body → Balanced h' n' e' es →
      Balanced h' n' (e + e') (.start k :: (body ++ .finish :: es))

theorem Balanced.mono {h n e h' n' : Nat} {es : List Event} (hb : Balanced h n e es)
    (hh : h ≤ h') (hn : n ≤ n') : Balanced h' n' e es := by
  induction hb generalizing h' n' with
  | nil => exact .nil _ _
  | tok k m h1 h2 _ ih => exact .tok k m h1 h2 (ih hh hn)
  | err x _ ih => exact .err x (ih hh hn)
  | node k hk h1 h2 hb _ _ ih => exact .node k hk (by omega) (by omega) hb (ih hh hn)

theorem Balanced.append {h n e e' : Nat} {es es' : List Event} (h1 : Balanced h n e es)
    (h2 : Balanced h n e' es') : Balanced h n (e + e') (es ++ es') := by
  induction h1 with
  | nil => simpa using h2
  | tok k m a b _ ih => exact .tok k m a b (ih h2)
  | err x _ ih =>
    rw [show ∀ a b : Nat, a + 1 + b = a + b + 1 from fun a b => by omega]
    exact .err x (ih h2)
  | node k hk a b hb _ _ ih =>
    rw [Nat.add_assoc, List.cons_append, List.append_assoc, List.cons_append]
    exact .node k hk a b hb (ih h2)

/-- What the tree builder does with the tokens: each token event takes the trivia before it and then
`m` significant tokens. The result is the tokens left. -/
def consume : List Event → List Token → Option (List Token)
  | [], T => some T
  | .token _ m :: es, T =>
    let T0 := T.dropWhile (·.kind.isTrivia)
    if m ≤ T0.length ∧ (T0.take m).all (fun t => !t.kind.isTrivia) then consume es (T0.drop m)
    else none
  | _ :: es, T => consume es T

/-- the events consume exactly the tokens, up to trailing trivia -/
def Emits (evs : List Event) (toks : List Token) : Prop :=
  ∃ R, consume evs toks = some R ∧ ∀ t ∈ R, t.kind.isTrivia = true

theorem consume_append_events (a b : List Event) (T : List Token) :
    consume (a ++ b) T = (consume a T).bind (consume b) := by
  induction a generalizing T with
  | nil => simp [consume]
  | cons x xs ih =>
    cases x with
    | token k m =>
      simp only [List.cons_append, consume]
      split
      · exact ih _
      · rfl
    | _ => simpa [consume] using ih T

theorem consume_append_tokens {evs : List Event} {T R : List Token} (X : List Token)
    (hm : ∀ k m, Event.token k m ∈ evs → 0 < m) (h : consume evs T = some R) :
    consume evs (T ++ X) = some (R ++ X) := by
  induction evs generalizing T with
  | nil => simp [consume] at h ⊢; rw [h]
  | cons x xs ih =>
    have hm' : ∀ k m, Event.token k m ∈ xs → 0 < m := fun k m hx => hm k m (List.mem_cons_of_mem _ hx)
    cases x with
    | token k m =>
      have h0 := hm k m (by simp)
      simp only [consume] at h ⊢
      split at h
      · next hc =>
        obtain ⟨hc1, hc2⟩ := hc
        have hne : T.dropWhile (·.kind.isTrivia) ≠ [] := by
          intro he; rw [he] at hc1; simp at hc1; omega
        have hd : (T ++ X).dropWhile (·.kind.isTrivia) = T.dropWhile (·.kind.isTrivia) ++ X := by
          rw [List.dropWhile_append]
          simp [hne]
        rw [hd, if_pos, List.drop_append_of_le_length hc1]
        · exact ih hm' h
        · refine ⟨by simp; omega, ?_⟩
          rw [List.take_append_of_le_length hc1]; exact hc2
      · cases h
    | _ => simpa [consume] using ih hm' (by simpa [consume] using h)

theorem dropWhile_all {α : Type} {p : α → Bool} {l : List α} (h : ∀ x ∈ l, p x = true) :
    l.dropWhile p = [] := by
  induction l with
  | nil => rfl
  | cons x xs ih =>
    rw [List.dropWhile_cons, if_pos (h x (by simp))]
    exact ih fun y hy => h y (by simp [hy])

theorem consume_trivia {evs : List Event} {T R : List Token} (Y : List Token)
    (hY : ∀ t ∈ Y, t.kind.isTrivia = true) (h : consume evs T = some R) :
    consume evs (Y ++ T) = some R ∨ consume evs (Y ++ T) = some (Y ++ R) := by
  induction evs generalizing T with
  | nil => simp [consume] at h ⊢; right; rw [h]
  | cons x xs ih =>
    cases x with
    | token k m =>
      left
      simp only [consume] at h ⊢
      have hd : (Y ++ T).dropWhile (·.kind.isTrivia) = T.dropWhile (·.kind.isTrivia) := by
        rw [List.dropWhile_append]
        have : Y.dropWhile (·.kind.isTrivia) = [] := by
          exact dropWhile_all hY
        simp [this]
      rw [hd]; exact h
    | _ => simpa [consume] using ih (by simpa [consume] using h)

theorem Emits.nil : Emits [] [] := ⟨[], rfl, by simp⟩

theorem Emits.append {a b : List Event} {s t : List Token} (ha : Emits a s) (hb : Emits b t)
    (hm : ∀ k m, Event.token k m ∈ a → 0 < m) : Emits (a ++ b) (s ++ t) := by
  obtain ⟨R, h1, h2⟩ := ha
  obtain ⟨R', h3, h4⟩ := hb
  rw [Emits, consume_append_events, consume_append_tokens t hm h1]
  simp only [Option.bind_some]
  rcases consume_trivia R h2 h3 with h | h
  · exact ⟨R', h, h4⟩
  · exact ⟨R ++ R', h, by
      intro x hx
      rcases List.mem_append.mp hx with hx | hx
      · exact h2 x hx
      · exact h4 x hx⟩

theorem Balanced.pos {h n e : Nat} {es : List Event} (hb : Balanced h n e es) :
    ∀ k m, Event.token k m ∈ es → 0 < m ∧ m ≤ 2 := by
  induction hb with
  | nil => simp
  | tok k m h1 h2 _ ih =>
    intro k' m' hx
    rcases List.mem_cons.mp hx with hx | hx
    · cases hx; exact ⟨h1, h2⟩
    · exact ih _ _ hx
  | err x _ ih =>
    intro k' m' hx
    rcases List.mem_cons.mp hx with hx | hx
    · cases hx
    · exact ih _ _ hx
  | node k _ _ _ _ _ ih1 ih2 =>
    intro k' m' hx
    rcases List.mem_cons.mp hx with hx | hx
    · cases hx
    · rcases List.mem_append.mp hx with hx | hx
      · exact ih1 _ _ hx
      · rcases List.mem_cons.mp hx with hx | hx
        · cases hx
        · exact ih2 _ _ hx

/-! ### Text covered by tokens -/

/-- `ts` cut the texts `ws`, laid end to end from byte `o` -/
def Cut : Nat → List Token → List (List Char) → Prop
  | _, [], ws => ws = []
  | o, t :: ts, ws => ∃ w ws', ws = w :: ws' ∧ t.span = ⟨o, o + utf8Len w⟩ ∧ Cut (o + utf8Len w) ts ws'

theorem Cut.append {o : Nat} {a b : List Token} {ws : List (List Char)} :
    Cut o (a ++ b) ws ↔ ∃ wa wb, ws = wa ++ wb ∧ Cut o a wa ∧ Cut (o + utf8Len wa.flatten) b wb := by
  induction a generalizing o ws with
  | nil =>
    constructor
    · intro h; exact ⟨[], ws, rfl, rfl, by simpa using h⟩
    · rintro ⟨wa, wb, rfl, h1, h2⟩
      cases h1
      simpa using h2
  | cons t ts ih =>
    simp only [List.cons_append, Cut, ih]
    constructor
    · rintro ⟨w, ws', rfl, h1, wa, wb, rfl, h2, h3⟩
      exact ⟨w :: wa, wb, by simp, ⟨w, wa, rfl, h1, h2⟩, by
        simpa [Nat.add_assoc] using h3⟩
    · rintro ⟨wa, wb, rfl, ⟨w, wa', rfl, h1, h2⟩, h3⟩
      exact ⟨w, wa' ++ wb, by simp, h1, wa', wb, rfl, h2, by simpa [Nat.add_assoc] using h3⟩

/-- What the parser needs to know about its input. -/
structure Static (source : List Char) (input : List Token) : Prop where
  eof : ∃ v e, input = v ++ [e] ∧ e.kind = EOF ∧ ∀ t ∈ v, t.kind ≠ EOF
  kinds : ∀ t ∈ input, t.kind ≠ DOUBLE_BRACKET_START ∧ t.kind ≠ DOUBLE_BRACKET_END
    ∧ t.kind ≠ TOMBSTONE
  cut : ∃ ws, Cut 0 input ws ∧ ws.flatten = source
  oneDot : ∀ t ∈ input, ∀ w, t.kind = FLOAT → TextIs source t w → w.count '.' ≤ 1
  attached : FloatsAttached source input

/-- The invariant of the parser. -/
structure Inv (p : Parser) : Prop where
  static : Static p.source p.input
  pos : p.pos < p.input.length
  depth : p.depth ≤ 128
  cut : ∃ ws, Cut 0 (p.tokens ++ p.rest) ws ∧ ws.flatten = p.source
  lag : ∀ t, p.input[p.pos]? = some t → t.kind.isTrivia = true →
    p.pos = 0 ∨ ∃ g, p.input[p.pos - 1]? = some g ∧ DottedFloat p.source g

/-- `p'` is `p` after consuming `j` significant tokens and producing a balanced list of events with
`e` errors. -/
structure Ran (h n j e : Nat) (p p' : Parser) : Prop where
  source : p'.source = p.source
  input : p'.input = p.input
  depth : p'.depth = p.depth
  inv : Inv p'
  adv : ∃ A, p.rest = A ++ p'.rest ∧ (sig A).length = j ∧ p'.pos = p.pos + A.length
  out : ∃ evs toks, p'.events = p.events ++ evs ∧ p'.tokens = p.tokens ++ toks ∧
    Balanced h n e evs ∧ Emits evs toks

namespace Ran

theorem refl {p : Parser} (hi : Inv p) (h n : Nat) : Ran h n 0 0 p p :=
  ⟨rfl, rfl, rfl, hi, ⟨[], by simp⟩, ⟨[], [], by simp, by simp, .nil _ _, Emits.nil⟩⟩

theorem mono {h n j e h' n' : Nat} {p p' : Parser} (hr : Ran h n j e p p') (hh : h ≤ h')
    (hn : n ≤ n') : Ran h' n' j e p p' := by
  obtain ⟨evs, toks, h1, h2, h3, h4⟩ := hr.out
  exact ⟨hr.source, hr.input, hr.depth, hr.inv, hr.adv, evs, toks, h1, h2, h3.mono hh hn, h4⟩

theorem trans {h n j e j' e' : Nat} {p p' p'' : Parser} (h1 : Ran h n j e p p')
    (h2 : Ran h n j' e' p' p'') : Ran h n (j + j') (e + e') p p'' := by
  obtain ⟨A, a1, a2, a3⟩ := h1.adv
  obtain ⟨B, b1, b2, b3⟩ := h2.adv
  obtain ⟨evs, toks, x1, x2, x3, x4⟩ := h1.out
  obtain ⟨evs', toks', y1, y2, y3, y4⟩ := h2.out
  refine ⟨h2.source.trans h1.source, h2.input.trans h1.input, h2.depth.trans h1.depth, h2.inv,
    ⟨A ++ B, by rw [a1, b1, List.append_assoc], by simp [a2, b2], by rw [b3, a3]; simp; omega⟩,
    evs ++ evs', toks ++ toks', by rw [y1, x1, List.append_assoc],
    by rw [y2, x2, List.append_assoc], x3.append y3, x4.append y4 fun k m hx => (x3.pos k m hx).1⟩

theorem nthIndex {h n j e : Nat} {p p' : Parser} (hr : Ran h n j e p p') (m : Nat) :
    p'.nthIndex m = p.nthIndex (m + j) := by
  obtain ⟨A, a1, a2, a3⟩ := hr.adv
  unfold Parser.nthIndex
  have : p.input.drop p.pos = A ++ p'.input.drop p'.pos := a1
  rw [this, ← a2, Parser.nthIndexFrom_append, a3]

theorem nthToken {h n j e : Nat} {p p' : Parser} (hr : Ran h n j e p p') (m : Nat) :
    p'.nthToken m = p.nthToken (m + j) := by
  unfold Parser.nthToken
  rw [hr.nthIndex, hr.input]

theorem nth {h n j e : Nat} {p p' : Parser} (hr : Ran h n j e p p') (m : Nat) :
    p'.nth m = p.nth (m + j) := by
  unfold Parser.nth
  rw [hr.nthToken]

theorem isJoint {h n j e : Nat} {p p' : Parser} (hr : Ran h n j e p p') (m : Nat) :
    p'.isJoint m = p.isJoint (m + j) := by
  unfold Parser.isJoint
  rw [hr.nthIndex, hr.input]

theorem nthAt {h n j e : Nat} {p p' : Parser} (hr : Ran h n j e p p') (m : Nat) (k : SyntaxKind) :
    p'.nthAt m k = p.nthAt (m + j) k := by
  have e1 : m + 1 + j = m + j + 1 := by omega
  cases k <;> simp [Parser.nthAt, Parser.atComposite2, hr.nth, hr.isJoint, e1]

end Ran

namespace Inv

theorem sig_rest {p : Parser} (hi : Inv p) :
    ∃ v e, sig p.rest = v ++ [e] ∧ e.kind = EOF ∧ ∀ t ∈ v, t.kind ≠ EOF := by
  obtain ⟨v, e, h1, h2, h3⟩ := hi.static.eof
  have hpos := hi.pos
  have hle : p.pos ≤ v.length := by rw [h1] at hpos; simp at hpos; omega
  have : p.rest = v.drop p.pos ++ [e] := by
    unfold Parser.rest; rw [h1, List.drop_append_of_le_length hle]
  refine ⟨sig (v.drop p.pos), e, ?_, h2, ?_⟩
  · rw [this, sig_append, sig_cons_sig (by rw [h2]; rfl)]; simp
  · intro t ht
    exact h3 t (List.mem_of_mem_drop (List.mem_filter.mp ht).1)

theorem nth_eof {p : Parser} (hi : Inv p) (m : Nat) : p.nth m = EOF ↔ p.rem ≤ m := by
  obtain ⟨v, e, h1, h2, h3⟩ := hi.sig_rest
  rw [Parser.nth_eq p, Parser.rem, h1]
  simp only [List.length_append, List.length_cons, List.length_nil]
  by_cases hm : m < v.length
  · rw [List.getElem?_append_left hm, List.getElem?_eq_getElem hm]
    have := h3 v[m] (List.getElem_mem hm)
    simp [this]; omega
  · by_cases hm' : m = v.length
    · subst hm'; simp [h2]
    · rw [List.getElem?_eq_none (by simp; omega)]
      simp [Token.eof]; omega

end Inv

namespace Ran

theorem rem {h n j e : Nat} {p p' : Parser} (hr : Ran h n j e p p') : p'.rem + j = p.rem := by
  obtain ⟨A, a1, a2, a3⟩ := hr.adv
  obtain ⟨v, x, h1, h2, h3⟩ := hr.inv.sig_rest
  unfold Parser.rem
  rw [a1, sig_append, h1, ← a2]
  simp; omega

end Ran

/-! ### Primitive methods -/

/-- pushing an event keeps the invariant -/
theorem Inv.pushEvents {p : Parser} (hi : Inv p) (es : List Event) : Inv { p with events := es } :=
  ⟨hi.static, hi.pos, hi.depth, hi.cut, hi.lag⟩

namespace PM

theorem currentRange_spec {p : Parser} (hi : Inv p) :
    wp currentRange (fun _ p' => p' = p) p := by
  have hp := hi.pos
  have : p.input[p.pos]? = some p.input[p.pos] := List.getElem?_eq_getElem hp
  refine ⟨p.input[p.pos].range, p, ?_, rfl⟩
  show (match p.input[p.pos]? with
    | some t => (Pure.pure t.range : PM Range)
    | none => panic) p = _
  rw [this]
  rfl

theorem previousFrom_le (input : List Token) (n : Nat) : Parser.previousFrom input n ≤ n := by
  induction n with
  | zero => simp [Parser.previousFrom]
  | succ n ih =>
    rw [Parser.previousFrom]
    split <;> omega

theorem previousRange_spec {p : Parser} (hi : Inv p) :
    wp previousRange (fun _ p' => p' = p) p := by
  by_cases h0 : p.pos = 0
  · refine ⟨Range.zero, p, ?_, rfl⟩
    show (if p.pos = 0 then (Pure.pure Range.zero : PM Range) else _) p = _
    rw [if_pos h0]; rfl
  · have hlt : Parser.previousFrom p.input (p.pos - 1) < p.input.length := by
      have := previousFrom_le p.input (p.pos - 1)
      have := hi.pos
      omega
    refine ⟨p.input[Parser.previousFrom p.input (p.pos - 1)].range, p, ?_, rfl⟩
    show (if p.pos = 0 then (Pure.pure Range.zero : PM Range) else
      (match p.input[Parser.previousFrom p.input (p.pos - 1)]? with
        | some t => (Pure.pure t.range : PM Range)
        | none => panic)) p = _
    rw [if_neg h0, List.getElem?_eq_getElem hlt]
    rfl

theorem error_spec {p : Parser} (hi : Inv p) (k : PErrorKind) (r : Range) :
    wp (error k r) (fun _ p' => Ran 0 0 0 1 p p') p := by
  refine ⟨(), _, rfl, ?_⟩
  refine ⟨rfl, rfl, rfl, hi.pushEvents _, ⟨[], rfl, rfl, rfl⟩, [.error ⟨k, r⟩], [], rfl, by simp,
    .err _ (.nil _ _), ?_⟩
  exact ⟨[], rfl, by simp⟩

/-- the parser right after `start` -/
def Started (m : Nat) (p p1 : Parser) : Prop :=
  m = p.events.length ∧ p1 = { p with events := p.events ++ [.start TOMBSTONE] }

theorem start_spec {p : Parser} (hi : Inv p) : wp start (fun m p1 => Started m p p1 ∧ Inv p1) p :=
  ⟨_, _, rfl, ⟨rfl, rfl⟩, hi.pushEvents _⟩

theorem complete_spec {m : Nat} {p p1 p2 : Parser} {h n j e : Nat} (hs : Started m p p1)
    (hr : Ran h n j e p1 p2) {k : SyntaxKind} (hk : k ≠ TOMBSTONE) :
    wp (complete m k) (fun _ p3 => Ran (h + 1) (n + nestOf k) j e p p3) p2 := by
  obtain ⟨rfl, rfl⟩ := hs
  obtain ⟨evs, toks, h1, h2, h3, h4⟩ := hr.out
  simp only [] at h1 h2
  have hget : p2.events[p.events.length]? = some (.start TOMBSTONE) := by
    rw [h1]; simp
  have hset : p2.events.set p.events.length (.start k) = p.events ++ .start k :: evs := by
    rw [h1]; simp
  refine ⟨(), { p2 with events := p.events ++ .start k :: evs ++ [.finish] }, ?_, ?_⟩
  · show (match p2.events[p.events.length]? with
      | some (.start _) => (do
          set { p2 with events := p2.events.set p.events.length (.start k) }
          pushEvent .finish : PM Unit)
      | _ => panic) p2 = _
    rw [hget, hset]
    rfl
  · have hb : Balanced (h + 1) (n + nestOf k) e (.start k :: (evs ++ .finish :: [])) :=
      Balanced.node k hk (Nat.le_refl _) (Nat.le_refl _) h3 (.nil _ _)
    refine ⟨hr.source, hr.input, hr.depth, hr.inv.pushEvents _, hr.adv,
      .start k :: (evs ++ [.finish]), toks, by simp, h2, hb, ?_⟩
    obtain ⟨R, r1, r2⟩ := h4
    refine ⟨R, ?_, r2⟩
    show consume (evs ++ [.finish]) toks = some R
    rw [consume_append_events, r1]
    rfl

/-- consuming `n` tokens, the first significant and the others right after it -/
theorem doBump_spec {p : Parser} (hi : Inv p) (k : SyntaxKind) {n : Nat} (hn : n = 1 ∨ n = 2)
    (hrem : n ≤ p.rem) (hj : n = 2 → p.isJoint 0 = true) :
    wp (doBump k n) (fun _ p' => Ran 0 0 n 0 p p') p := by
  obtain ⟨v, x, hv1, hv2, hv3⟩ := hi.sig_rest
  have hlen : n < (sig p.rest).length := by
    unfold Parser.rem at hrem; rw [hv1] at hrem ⊢; simp at hrem ⊢; omega
  obtain ⟨A, t, B, h1, h2, h3, h4⟩ := Parser.nthIndexFrom_lt hlen p.pos
  have hidx : p.nthIndex n = p.pos + A.length := h4
  have hpos := hi.pos
  have hil : p.input = p.input.take p.pos ++ (A ++ t :: B) := by
    rw [← h1]; unfold Parser.rest; rw [List.take_append_drop]
  have htl : (p.input.take p.pos).length = p.pos := by simp; omega
  have hslice : (p.input.take (p.pos + A.length)).drop p.pos = A := by
    rw [hil, List.take_append, htl]
    rw [List.drop_append]
    simp [htl]
  have hrest : p.input.drop (p.pos + A.length) = t :: B := by
    have : p.input.drop (p.pos + A.length) = (p.input.drop p.pos).drop A.length := by
      rw [List.drop_drop]
    rw [this]
    show p.rest.drop A.length = _
    rw [h1]; simp
  refine ⟨(), Parser.mk p.source p.input (p.pos + A.length) p.depth (p.tokens ++ A)
    (p.events ++ [.token k n]), ?_, ?_⟩
  · show (if p.pos ≤ p.nthIndex n then _ else _ : PM Unit) _ = _
    rw [hidx, if_pos (by omega)]
    show Except.ok _ = _
    have hidx' : (Parser.mk p.source p.input p.pos p.depth p.tokens
        (p.events ++ [.token k n])).nthIndex n = p.pos + A.length := hidx
    simp only [hidx', hslice]
  have hlt : p.pos + A.length < p.input.length := by
    have := congrArg List.length hrest
    simp at this
    omega
  refine ⟨rfl, rfl, rfl, ?_, ⟨A, ?_, h3, rfl⟩, [.token k n], A, rfl, rfl,
    .tok k n (by omega) (by omega) (.nil _ _), ?_⟩
  · refine ⟨hi.static, hlt, hi.depth, ?_, ?_⟩
    · have : (Parser.mk p.source p.input (p.pos + A.length) p.depth (p.tokens ++ A)
        (p.events ++ [.token k n])).rest = t :: B := hrest
      rw [this]
      have hc := hi.cut
      rw [h1] at hc
      simpa using hc
    · intro u hu htr
      have : p.input[p.pos + A.length]? = some t := by
        have : p.input[p.pos + A.length]? = p.rest[A.length]? := by simp [Parser.rest]
        rw [this, h1]; simp
      simp only [] at hu
      rw [this] at hu
      cases hu
      rw [h2] at htr; cases htr
  · rw [h1]
    have : (Parser.mk p.source p.input (p.pos + A.length) p.depth (p.tokens ++ A)
        (p.events ++ [.token k n])).rest = t :: B := hrest
    rw [this]
  · -- the event takes the significant tokens of `A`
    obtain ⟨A', u, B', a1, a2, a3, a4⟩ := Parser.nthIndexFrom_lt (L := A) (n := 0) (by omega) p.pos
    have hA' : ∀ y ∈ A', y.kind.isTrivia = true := sig_eq_nil.mp (List.length_eq_zero_iff.mp a3)
    have hdw : A.dropWhile (·.kind.isTrivia) = u :: B' := by
      rw [a1, List.dropWhile_append]
      rw [dropWhile_all hA']
      simp [a2]
    rcases hn with rfl | rfl
    · refine ⟨B', ?_, ?_⟩
      · simp [consume, hdw, a2]
      · rw [a1] at h3
        simp only [sig_append, sig_cons_sig a2, List.length_append, List.length_cons] at h3
        exact sig_eq_nil.mp (List.length_eq_zero_iff.mp (by omega))
    · have hjt := hj rfl
      have hi0 : p.nthIndex 0 = p.pos + A'.length := by
        unfold Parser.nthIndex
        show Parser.nthIndexFrom p.rest p.pos 0 = _
        rw [h1, a1, List.append_assoc]
        have := Parser.nthIndexFrom_append A' (u :: B' ++ t :: B) p.pos 0
        rw [a3] at this
        rw [show A' ++ (u :: B' ++ t :: B) = A' ++ (u :: B' ++ t :: B) from rfl]
        rw [this]
        exact Parser.nthIndexFrom_zero a2 _
      have hs3 := h3
      rw [a1] at hs3
      simp only [sig_append, sig_cons_sig a2, List.length_append, List.length_cons] at hs3
      cases hB : B' with
      | nil => rw [hB] at hs3; simp at hs3; omega
      | cons w C =>
        have hw : w.kind.isTrivia = false := by
          unfold Parser.isJoint at hjt
          rw [hi0] at hjt
          have : p.input[p.pos + A'.length + 1]? = some w := by
            have : p.input[p.pos + A'.length + 1]? = p.rest[A'.length + 1]? := by
              simp [Parser.rest, Nat.add_assoc]
            rw [this, h1, a1, hB]
            simp [List.append_assoc]
          rw [this] at hjt
          simpa using hjt
        refine ⟨C, ?_, ?_⟩
        · simp [consume, hdw, hB, a2, hw]
        · rw [hB, sig_cons_sig hw] at hs3
          simp only [List.length_cons] at hs3
          exact sig_eq_nil.mp (List.length_eq_zero_iff.mp (by omega))

theorem Started.same {m : Nat} {p p1 : Parser} (hs : Started m p p1) :
    p1.nth = p.nth ∧ p1.rem = p.rem ∧ p1.depth = p.depth ∧ p1.nthAt = p.nthAt ∧ p1.input = p.input
    ∧ p1.source = p.source := by
  obtain ⟨rfl, rfl⟩ := hs
  exact ⟨rfl, rfl, rfl, rfl, rfl, rfl⟩

/-- number of raw tokens of an event of kind `k` -/
def rawOf (k : SyntaxKind) : Nat := if k = DOUBLE_BRACKET_START ∨ k = DOUBLE_BRACKET_END then 2 else 1

theorem nthAt_plain {p : Parser} {k : SyntaxKind} (hk : rawOf k = 1) (n : Nat) :
    p.nthAt n k = (p.nth n == k) := by
  cases k <;> first | rfl | (simp [rawOf] at hk)

theorem eat_spec {p : Parser} (hi : Inv p) {k : SyntaxKind} (hk : k ≠ EOF) :
    wp (eat k) (fun b p' => b = p.nthAt 0 k ∧ Ran 0 0 (if b then rawOf k else 0) 0 p p') p := by
  refine wp.bind (wp.read ?_)
  by_cases hat : p.nthAt 0 k = true
  · rw [show p.atKind k = true from hat, if_pos rfl]
    refine wp.seq (Q := fun _ p' => Ran 0 0 (rawOf k) 0 p p') ?_ fun _ p' hr => wp.pure ⟨hat.symm, by simpa using hr⟩
    show wp (doBump k (rawOf k)) _ _
    by_cases h2 : rawOf k = 1
    · rw [h2]
      refine doBump_spec hi k (Or.inl rfl) ?_ (by simp)
      rw [nthAt_plain h2] at hat
      have : p.nth 0 ≠ EOF := by rw [beq_iff_eq.mp hat]; exact hk
      rw [ne_eq, hi.nth_eof] at this
      omega
    · have h2' : rawOf k = 2 := by unfold rawOf at h2 ⊢; split at h2 <;> simp_all
      rw [h2']
      have hd : k = DOUBLE_BRACKET_START ∨ k = DOUBLE_BRACKET_END := by
        unfold rawOf at h2; split at h2 <;> simp_all
      have hx : p.nth 1 ≠ EOF ∧ p.isJoint 0 = true := by
        rcases hd with rfl | rfl
        · simp [Parser.nthAt, Parser.atComposite2] at hat
          exact ⟨by rw [hat.1.2]; decide, hat.2⟩
        · simp [Parser.nthAt, Parser.atComposite2] at hat
          exact ⟨by rw [hat.1.2]; decide, hat.2⟩
      rw [ne_eq, hi.nth_eof] at hx
      exact doBump_spec hi k (Or.inr rfl) (by omega) fun _ => hx.2
  · have hf : p.nthAt 0 k = false := by simpa using hat
    rw [show p.atKind k = false from hf]
    exact wp.pure ⟨hf.symm, by simpa using Ran.refl hi 0 0⟩

theorem eatTs_spec {p : Parser} (hi : Inv p) {ts : TokenSet}
    (hts : ∀ k, ts.contains k = true → k ≠ EOF ∧ rawOf k = 1) :
    wp (eatTs ts) (fun b p' => b = ts.contains (p.nth 0) ∧ Ran 0 0 (if b then 1 else 0) 0 p p') p := by
  refine wp.bind (wp.read ?_)
  by_cases hc : ts.contains (p.nth 0) = true
  · rw [show ts.contains p.current = true from hc, if_pos rfl]
    refine wp.seq (Q := fun _ p' => Ran 0 0 1 0 p p') ?_ fun _ p' hr => wp.pure ⟨hc.symm, by simpa using hr⟩
    obtain ⟨h1, h2⟩ := hts _ hc
    show wp (doBump _ (rawOf p.current)) _ _
    rw [show rawOf p.current = 1 from h2]
    refine doBump_spec hi _ (Or.inl rfl) ?_ (by simp)
    rw [ne_eq, hi.nth_eof] at h1
    omega
  · have hf : ts.contains (p.nth 0) = false := by simpa using hc
    rw [show ts.contains p.current = false from hf]
    exact wp.pure ⟨hf.symm, by simpa using Ran.refl hi 0 0⟩

theorem bump_spec {p : Parser} (hi : Inv p) {k : SyntaxKind} (hk : k ≠ EOF) (hr : rawOf k = 1)
    (h : p.nth 0 = k) : wp (bump k) (fun _ p' => Ran 0 0 1 0 p p') p := by
  refine wp.seq (eat_spec hi hk) ?_
  rintro b p' ⟨hb, hran⟩
  rw [nthAt_plain hr, h] at hb
  simp at hb
  subst hb
  exact ⟨(), p', rfl, by simpa [hr] using hran⟩

theorem bumpAny_spec {p : Parser} (hi : Inv p) :
    wp bumpAny (fun _ p' => Ran 0 0 (if p.nth 0 = EOF then 0 else 1) 0 p p') p := by
  refine wp.bind (wp.read ?_)
  by_cases h : p.nth 0 = EOF
  · rw [if_pos h, if_pos h]
    exact wp.pure (Ran.refl hi 0 0)
  · rw [if_neg h, if_neg h]
    refine doBump_spec hi _ (Or.inl rfl) ?_ (by simp)
    rw [hi.nth_eof] at h
    omega

theorem bumpRemap_spec {p : Parser} (hi : Inv p) (k : SyntaxKind) (h : p.nth 0 ≠ EOF) :
    wp (bumpRemap k) (fun _ p' => Ran 0 0 1 0 p p') p := by
  refine wp.bind (wp.read ?_)
  rw [if_neg h]
  refine doBump_spec hi _ (Or.inl rfl) ?_ (by simp)
  rw [ne_eq, hi.nth_eof] at h
  omega

theorem invalidToken_spec {p : Parser} (hi : Inv p) :
    wp invalidToken (fun _ p' => Ran 1 0 0 0 p p') p := by
  refine wp.seq (start_spec hi) ?_
  rintro m p1 ⟨hs, hi1⟩
  refine (complete_spec hs (Ran.refl hi1 0 0) (k := INVALID_TOKEN) (by decide)).mono ?_
  intro _ p3 h
  exact h

end PM
end Tombi
