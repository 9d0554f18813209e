import Verif.Proofs.ViewTop
/-! Which blanks the parser on views sees: only those between two brackets of the same kind. -/
namespace Tombi
open SyntaxKind View PM

namespace View

/-- whether a blank after a token of kind `k`, before one of kind `k'`, matters -/
def matters (k k' : SyntaxKind) : Bool := k == k' && (k == BRACKET_START || k == BRACKET_END)

/-- forgets the blanks that do not matter -/
def mask : View → View
  | [] => []
  | t :: v => { t with joint := t.joint && matters t.kind (hd v) } :: mask v

theorem hd_mask (v : View) : hd (mask v) = hd v := by cases v <;> rfl

theorem length_mask (v : View) : (mask v).length = v.length := by
  induction v with
  | nil => rfl
  | cons t v ih => simp [mask, ih]

theorem tail_mask (v : View) : (mask v).tail = mask v.tail := by cases v <;> rfl

theorem drop_mask (v : View) (n : Nat) : (mask v).drop n = mask (v.drop n) := by
  induction n generalizing v with
  | zero => rfl
  | succ n ih =>
    cases v with
    | nil => rfl
    | cons t v => exact ih v

theorem take_mask (v : View) (n : Nat) : ((mask v).take n).map leaf = (v.take n).map leaf := by
  induction n generalizing v with
  | zero => simp
  | succ n ih =>
    cases v with
    | nil => rfl
    | cons t v =>
      have := ih v
      simp only [mask, List.take_succ_cons, List.map_cons, this]
      rfl

theorem takeWhile_mask (v : View) (s : SyntaxKind → Bool) :
    ((mask v).takeWhile (fun t => s t.kind)).map leaf = (v.takeWhile (fun t => s t.kind)).map leaf := by
  induction v with
  | nil => rfl
  | cons t v ih =>
    rw [mask]
    by_cases h : s t.kind = true
    · rw [List.takeWhile_cons_of_pos (by simpa using h), List.takeWhile_cons_of_pos (by simpa using h), List.map_cons,
        List.map_cons, ih]
      rfl
    · rw [List.takeWhile_cons_of_neg (by simpa using h), List.takeWhile_cons_of_neg (by simpa using h)]

theorem dropWhile_mask (v : View) (s : SyntaxKind → Bool) :
    (mask v).dropWhile (fun t => s t.kind) = mask (v.dropWhile (fun t => s t.kind)) := by
  induction v with
  | nil => rfl
  | cons t v ih =>
    rw [mask]
    by_cases h : s t.kind = true
    · rw [List.dropWhile_cons_of_pos (by simpa using h), List.dropWhile_cons_of_pos (by simpa using h), ih]
    · rw [List.dropWhile_cons_of_neg (by simpa using h), List.dropWhile_cons_of_neg (by simpa using h)]; rfl

theorem atPair_mask (v : View) (k : SyntaxKind) (hk : k = BRACKET_START ∨ k = BRACKET_END) :
    atPair k (mask v) = atPair k v := by
  match v with
  | [] => rfl
  | [_] => rfl
  | t :: u :: v =>
    simp only [mask, atPair, hd, matters]
    rw [Bool.eq_iff_iff]
    simp only [Bool.and_eq_true, beq_iff_eq, Bool.or_eq_true]
    constructor
    · rintro ⟨⟨a, b⟩, c, -⟩; exact ⟨⟨a, b⟩, c⟩
    · rintro ⟨⟨a, b⟩, c⟩; refine ⟨⟨a, b⟩, c, by rw [a, b], ?_⟩; rw [a]; exact hk

theorem peek_mask (v : View) : peek (mask v) = mask (peek v) := by
  fun_induction peek v with
  | case1 => rfl
  | case2 t h => simp [mask, peek, h]
  | case3 t h => simp [mask, peek, h]
  | case4 t u v h ih =>
    rw [← ih]
    simp [mask, peek, h]
  | case5 t u v h h' ih =>
    rw [← ih]
    simp only [mask]
    rw [peek, if_neg h, hd_mask, if_pos h']
  | case6 t u v h h' =>
    simp only [mask]
    rw [peek, if_neg h, hd_mask, if_neg h']

theorem isSep_mask (v : View) : isSep (mask v) = isSep v := by
  unfold isSep
  rw [tail_mask, hd_mask, hd_mask]

theorem dangLoop_mask (v : View) : dangLoop (mask v) = dangLoop v := by
  match v with
  | [] => rfl
  | [_] => rfl
  | t :: l :: v =>
    have ih := dangLoop_mask v
    simp only [mask, dangLoop, hd_mask, ih]

theorem dangLen_mask (v : View) : dangLen (mask v) = dangLen v := by
  unfold dangLen
  rw [hd_mask, dangLoop_mask]

end View

/-- does not see the blanks that do not matter -/
def Blind (f : PV) : Prop := ∀ v, f (mask v) = (f v).map fun x => (x.1, mask x.2)

namespace Blind

theorem ok : Blind okV := fun _ => rfl
theorem fail : Blind failV := fun _ => rfl
theorem none : Blind (fun _ => Option.none) := fun _ => rfl

theorem seq {f g : PV} (hf : Blind f) (hg : Blind g) : Blind (f ⨟ g) := by
  intro v
  unfold seqV
  rw [hf]
  cases f v with
  | none => rfl
  | some x =>
    simp only [Option.map_some]
    rw [hg]
    cases g x.2 <;> rfl

theorem node {f : PV} {k : SyntaxKind} (hf : Blind f) : Blind (nodeV k f) := by
  intro v
  unfold nodeV
  rw [hf]
  cases f v <;> rfl

theorem tok (k : SyntaxKind) : Blind (tokV k) := by
  intro v
  cases v with
  | nil => rfl
  | cons t v =>
    simp only [tokV, mask]
    split <;> rfl

theorem pair {k kk : SyntaxKind} (hk : k = BRACKET_START ∨ k = BRACKET_END) : Blind (pairV k kk) := by
  intro v
  match v with
  | [] => rfl
  | [_] => rfl
  | t :: u :: v =>
    have := atPair_mask (t :: u :: v) k hk
    simp only [mask] at this
    simp only [pairV, mask, this]
    split <;> rfl

theorem span (s : SyntaxKind → Bool) : Blind (spanV s) := by
  intro v
  simp only [spanV, Option.map_some, takeWhile_mask, dropWhile_mask]

theorem ite {c : View → Prop} [∀ v, Decidable (c v)] {f g : PV} (hc : ∀ v, c (mask v) ↔ c v) (hf : Blind f) (hg : Blind g) :
    Blind (fun v => if c v then f v else g v) := by
  intro v
  dsimp only
  by_cases h : c v
  · rw [if_pos h, if_pos ((hc v).mpr h)]; exact hf v
  · rw [if_neg h, if_neg fun x => h ((hc v).mp x)]; exact hg v

theorem lead : Blind leadV := span _
theorem trail : Blind trailV := span _
theorem breaks : Blind breaksV := span _

theorem key : Blind keyV := by
  intro v
  cases v with
  | nil => rfl
  | cons t v =>
    simp only [keyV, mask]
    split
    iterate 9 rfl
    · split <;> rfl
    · rfl

theorem keysLoop (n : Nat) : Blind (keysLoopV n) := by
  induction n with
  | zero => exact fail
  | succ n ih =>
    exact seq key (ite (fun v => by rw [hd_mask]) (seq (tok _) (ite (fun v => by rw [hd_mask]) ih none)) ok)

theorem keys : Blind keysV := by
  refine node ?_
  intro v
  dsimp only
  rw [tail_mask, hd_mask, length_mask]
  split
  · exact keysLoop _ v
  · exact key v

theorem comma : Blind commaV := node (seq lead (seq (tok _) trail))

theorem take (k : Nat) : Blind (fun v => some ((v.take k).map leaf, v.drop k)) := by
  intro v
  simp only [take_mask, drop_mask, Option.map_some]

theorem dangling (n : Nat) : Blind (danglingV n) := by
  induction n with
  | zero => exact fail
  | succ n ih =>
    refine seq breaks ?_
    intro v
    dsimp only
    rw [dangLen_mask]
    split
    · exact ok v
    · exact seq (node (take _)) ih v

theorem danglings : Blind danglingsV := by
  intro v
  unfold danglingsV
  rw [length_mask]
  exact dangling _ v

theorem literal (k : SyntaxKind) : Blind (literalV k) := node (seq lead (seq (tok _) trail))

theorem nested (d : Nat) {f : Nat → PV} (h : ∀ d, Blind (f d)) : Blind (nestedV d f) := by
  unfold nestedV
  split
  · exact fail
  · exact h _

theorem more (first : TokenSet) {loop : PV} (h : Blind loop) : Blind (moreV first loop) :=
  ite (fun v => by rw [peek_mask, hd_mask]) h ok

theorem afterItem (e first : TokenSet) {loop : PV} (h : Blind loop) : Blind (afterItemV e first loop) :=
  ite (fun v => by rw [peek_mask, hd_mask]) (seq comma (more _ h))
    (ite (fun v => by rw [peek_mask, hd_mask]) ok (more _ h))

theorem nextLine {loop : PV} (h : Blind loop) : Blind (nextLineV loop) := ite (fun v => by rw [hd_mask]) (more _ h) ok

theorem afterPair {loop : PV} (h : Blind loop) : Blind (afterPairV loop) :=
  ite (fun v => by rw [peek_mask, hd_mask]) (seq comma (nextLine h)) (nextLine h)

theorem lineEnd : Blind lineEndV := ite (fun v => by rw [hd_mask]) ok none

theorem body {rec : NT → Nat → PV} (h : ∀ nt d, Blind (rec nt d)) (nt : NT) (d : Nat) : Blind (bodyV rec nt d) := by
  cases nt with
  | value =>
    intro v
    show valueV rec d (mask v) = (valueV rec d v).map _
    unfold valueV
    rw [peek_mask, hd_mask]
    split
    · exact literal _ v
    · split
      · exact nested d (h _) v
      · split
        · exact nested d (h _) v
        · rfl
  | array => exact node (seq lead (seq (tok _) (seq trail (seq (h _ _) (seq (tok _) trail)))))
  | arrayLoop =>
    exact seq breaks (seq danglings (ite (fun v => by rw [peek_mask, hd_mask]) ok (seq (h _ _) (h _ _))))
  | inlineTable => exact node (seq lead (seq (tok _) (seq trail (seq (h _ _) (seq (tok _) trail)))))
  | inlineTableLoop =>
    exact seq breaks (seq danglings (ite (fun v => by rw [peek_mask, hd_mask]) ok (seq (h _ _) (h _ _))))
  | valueGroup => exact node (h _ _)
  | valueGroupLoop => exact ite (fun v => by rw [isSep_mask]) ok (seq (h _ _) (afterItem _ _ (h _ _)))
  | commaGroup => exact node (h _ _)
  | commaGroupLoop => exact ite (fun v => by rw [isSep_mask]) ok (seq (h _ _) (afterItem _ _ (h _ _)))
  | keyValue =>
    exact node (seq lead (seq keys (seq (tok _) (seq
      (ite (fun v => by rw [hd_mask]) none (ite (fun v => by rw [hd_mask]) none (h _ _))) trail))))
  | keyValueGroup => exact node (h _ _)
  | keyValueGroupLoop => exact ite (fun v => by rw [isSep_mask]) ok (seq (h _ _) (afterPair (h _ _)))
  | sectionLoop =>
    exact seq breaks (seq danglings (ite (fun v => by rw [peek_mask, hd_mask]) ok (seq (h _ _) (seq lineEnd (h _ _)))))
  | table => exact node (seq lead (seq (tok _) (seq keys (seq (tok _) (seq trail (seq lineEnd (h _ _)))))))
  | arrayOfTable =>
    exact node (seq lead (seq (pair (.inl rfl)) (seq keys (seq (pair (.inr rfl)) (seq trail (seq lineEnd (h _ _)))))))
  | rootLoop =>
    show Blind (rootLoopV rec d)
    unfold rootLoopV
    refine seq breaks ?_
    intro v
    dsimp only
    rw [peek_mask, hd_mask, atPair_mask _ _ (.inl rfl)]
    split
    · exact ok v
    · split
      · exact seq (h _ _) (h _ _) v
      · split
        · exact seq (h _ _) (h _ _) v
        · rfl

theorem parse (n : Nat) : ∀ nt d, Blind (parseV n nt d) := by
  induction n with
  | zero => exact fun _ _ => fail
  | succ n ih => exact fun nt d => body ih nt d

theorem root (n : Nat) : Blind (rootV n) := node (seq (parse _ _ _) (parse _ _ _))

end Blind

end Tombi
