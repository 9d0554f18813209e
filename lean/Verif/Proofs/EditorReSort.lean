import Verif.Proofs.EditorReGroups
/-! A run of the editor is a chain of steps of `Re`. -/
namespace Tombi.Editing
open SyntaxKind
open Tombi.Format (AstKey)
open Tombi.Formatter (Node Body Section Doc Comma Text Word Prev commentWords trailingWords commaWords keyWords NamesBeforeDots docOf
  childrenOf NoComma)
open Tombi.Reading (Scalar keyOr convert headComments)

variable {C : Text → Prop} {arrays : Bool} {S : Type}

/-- A value after sorting. -/
inductive ReN (C : Text → Prop) (arrays : Bool) : Node → Node → Prop where
  | refl (n : Node) : ReN C arrays n n
  | array (l : List Text) (s tr : Option Text) {b b' : Body} : Re C arrays false b b' → ReN C arrays (.array l s b tr) (.array l s b' tr)
  | table (l : List Text) (s tr : Option Text) {b b' : Body} : Re C arrays true b b' → ReN C arrays (.table l s b tr) (.table l s b' tr)

theorem ReN.item {n n' : Node} (h : ReN C arrays n n') (f : Option Nat) (c : Option Comma) (rest : Body) :
    Re C arrays false (.item f n c rest) (.item f n' c rest) := by
  cases h with
  | refl => exact .refl _
  | array l s tr h => exact .array f l s tr c rest h
  | table l s tr h => exact .table f l s tr c rest h

theorem ReN.pair {n n' : Node} (h : ReN C arrays n n') (f : Option Nat) (l : List Text) (ks : List AstKey) (src : Text)
    (c : Option Comma) (rest : Body) : Re C arrays true (.item f (.pair l ks src n) c rest) (.item f (.pair l ks src n') c rest) := by
  cases h with
  | refl => exact .refl _
  | array l' s tr h => exact .pairArray f l ks src l' s tr c rest h
  | table l' s tr h => exact .pairTable f l ks src l' s tr c rest h

theorem BodyIn.head {f : Option Nat} {n : Node} {c : Option Comma} {rest : Body} (h : BodyIn C (.item f n c rest)) :
    (∀ g t, Word.comment g t ∈ n.words → C t) ∧ BodyIn C rest := by
  refine ⟨fun g t ht => h g t ?_, fun g t ht => h g t ?_⟩ <;> simp only [Body.words, List.mem_append]
  · exact .inl (.inl ht)
  · exact .inr ht

theorem BodyIn.dangling {k : Nat} {cs : List Text} {rest : Body} (h : BodyIn C (.dangling k cs rest)) : BodyIn C rest := by
  refine fun g t ht => h g t ?_
  simp only [Body.words, List.mem_append]
  exact .inr ht

/-- Arrays may be sorted, or `w` sorts none. -/
def ArraysOk (arrays : Bool) (w : EditWorld S) : Prop :=
  arrays = true ∨ ∀ acc schema item cs values vs, arrayOrder w acc schema item (w.arrayDirective cs) values vs = none

mutual
theorem sortNode_re (w : EditWorld S) (hA : ArraysOk arrays w) (fuel : Nat) (v : TomlVersion) : (n : Node) → ∀ cs acc schema t d n', n.WF d →
    n.isPair = false → (∀ g t, Word.comment g t ∈ n.words → C t) → sortNode w fuel v cs acc schema t n = .ok n' → ReN C arrays n n'
  | .lit l k x tr, cs, acc, schema, t, d, n', hw, hp, hc, h => by
    rw [sortNode] at h
    cases h
    exact .refl _
  | .array l s b tr, cs, acc, schema, t, d, n', hw, hp, hc, h => by
    rw [Node.WF] at hw
    have hb : BodyIn C b := fun g t ht => hc g t (by simp only [Node.words, List.mem_append]; exact .inl (.inr ht))
    rw [sortNode] at h
    cases ht : arrayValues t with
    | none => rw [ht] at h; cases h; exact .refl _
    | some ts =>
      rw [ht] at h
      simp only at h
      cases hi : itemSchema w fuel t acc schema with
      | error e => rw [hi] at h; cases h
      | ok item =>
        rw [hi] at h
        simp only at h
        cases hs : sortItems w fuel v acc item 0 ts b with
        | error e => rw [hs] at h; cases h
        | ok b' =>
          rw [hs] at h
          simp only at h
          cases h
          have h1 := sortItems_re w hA fuel v b acc item 0 ts _ _ b' hw.2 hb hs
          refine .array l s tr (h1.trans (sorted_re _ (fun last start g items rest hit => ?_) 0 (h1.comments hb)))
          refine editValues_re hit _ _ _ _ ?_ g rest
          rcases hA with hA | hA
          · cases ho : arrayOrder w acc schema item (w.arrayDirective (cs ++ s.toList ++ headComments b))
              ((items.map (·.1)).zip (ts.drop start)) (sourceValues (arrayItems (items.take (ts.length - start)))) with
            | none => exact .inl rfl
            | some sorted => exact .inr ⟨.inr hA, sorted, rfl, arrayOrder_reordered ho⟩
          · exact .inl (hA ..)
  | .table l s b tr, cs, acc, schema, t, d, n', hw, hp, hc, h => by
    rw [Node.WF] at hw
    have hb : BodyIn C b := fun g t ht => hc g t (by simp only [Node.words, List.mem_append]; exact .inl (.inr ht))
    rw [sortNode] at h
    split at h
    · cases hs : sortEntries w fuel v acc schema t b with
      | error e => rw [hs] at h; cases h
      | ok b' =>
        rw [hs] at h
        simp only at h
        cases h
        have h1 := sortEntries_re w hA fuel v b acc schema t _ _ b' hw.2 hb hs
        refine .table l s tr (h1.trans (sorted_re _ (fun last start g items rest hit => ?_) 0 (h1.comments hb)))
        refine editGroup_re hit _ _ _ ?_ g rest
        cases ho : inlineOrder w fuel v t acc schema (w.tableDirective (cs ++ s.toList ++ headComments b)) items with
        | none => exact .inl rfl
        | some rs =>
          refine .inr ⟨.inl rfl, _, rfl, pick_reordered _ ?_⟩
          rw [arrayItems, List.length_map]
          exact inlineOrder_perm ho
    · cases h
      exact .refl _
  | .pair .., cs, acc, schema, t, d, n', hw, hp, hc, h => by cases hp
theorem sortItems_re (w : EditWorld S) (hA : ArraysOk arrays w) (fuel : Nat) (v : TomlVersion) : (b : Body) → ∀ acc item i ts d prev b',
    b.WF false d prev → BodyIn C b → sortItems w fuel v acc item i ts b = .ok b' → Re C arrays false b b'
  | .nil, acc, item, i, ts, d, prev, b', hw, hc, h => by
    rw [sortItems] at h
    cases h
    exact .refl _
  | .dangling k cs rest, acc, item, i, ts, d, prev, b', hw, hc, h => by
    rw [Body.WF] at hw
    rw [sortItems] at h
    cases hs : sortItems w fuel v acc item i ts rest with
    | error e => rw [hs] at h; cases h
    | ok rest' =>
      rw [hs] at h
      cases h
      exact .dangling k cs (sortItems_re w hA fuel v rest acc item i ts _ _ rest' hw.2.2.2 hc.dangling hs)
  | .item f n c rest, acc, item, i, ts, d, prev, b', hw, hc, h => by
    rw [Body.WF] at hw
    cases ts with
    | nil => rw [sortItems] at h; cases h; exact .refl _
    | cons t ts =>
      rw [sortItems] at h
      cases hn : sortNode w fuel v [] (acc ++ [.index i]) item t n with
      | error e => rw [hn] at h; cases h
      | ok n' =>
        rw [hn] at h
        simp only at h
        cases hs : sortItems w fuel v acc item (i + 1) ts rest with
        | error e => rw [hs] at h; cases h
        | ok rest' =>
          rw [hs] at h
          cases h
          exact ((sortNode_re w hA fuel v n _ _ _ _ _ n' hw.2.1 hw.1 hc.head.1 hn).item f c rest).trans
            (.tail f n' c (sortItems_re w hA fuel v rest acc item (i + 1) ts _ _ rest' hw.2.2.2 hc.head.2 hs))
theorem sortEntries_re (w : EditWorld S) (hA : ArraysOk arrays w) (fuel : Nat) (v : TomlVersion) : (b : Body) → ∀ acc schema t d prev b',
    b.WF true d prev → BodyIn C b → sortEntries w fuel v acc schema t b = .ok b' → Re C arrays true b b'
  | .nil, acc, schema, t, d, prev, b', hw, hc, h => by
    rw [sortEntries] at h
    cases h
    exact .refl _
  | .dangling k cs rest, acc, schema, t, d, prev, b', hw, hc, h => by
    rw [Body.WF] at hw
    rw [sortEntries] at h
    cases hs : sortEntries w fuel v acc schema t rest with
    | error e => rw [hs] at h; cases h
    | ok rest' =>
      rw [hs] at h
      cases h
      exact .dangling k cs (sortEntries_re w hA fuel v rest acc schema t _ _ rest' hw.2.2.2 hc.dangling hs)
  | .item f (.lit ..) c rest, acc, schema, t, d, prev, b', hw, hc, h => by rw [Body.WF] at hw; cases hw.1
  | .item f (.array ..) c rest, acc, schema, t, d, prev, b', hw, hc, h => by rw [Body.WF] at hw; cases hw.1
  | .item f (.table ..) c rest, acc, schema, t, d, prev, b', hw, hc, h => by rw [Body.WF] at hw; cases hw.1
  | .item f (.pair l ks src n) c rest, acc, schema, t, d, prev, b', hw, hc, h => by
    rw [Body.WF, Node.WF] at hw
    rw [sortEntries, sortNode] at h
    cases hf : followSchema w fuel t (ks.map fun k => .key (keyOr v k)) acc schema with
    | error e => rw [hf] at h; cases h
    | ok o =>
      rw [hf] at h
      cases o with
      | none =>
        simp only at h
        cases hs : sortEntries w fuel v acc schema t rest with
        | error e => rw [hs] at h; cases h
        | ok rest' =>
          rw [hs] at h
          cases h
          exact .tail f _ c (sortEntries_re w hA fuel v rest acc schema t _ _ rest' hw.2.2.2 hc.head.2 hs)
      | some x =>
        obtain ⟨t', acc', schema'⟩ := x
        simp only at h
        cases hn : sortNode w fuel v (l ++ n.trailing.toList) acc' schema' t' n with
        | error e => rw [hn] at h; cases h
        | ok n' =>
          rw [hn] at h
          simp only at h
          cases hs : sortEntries w fuel v acc schema t rest with
          | error e => rw [hs] at h; cases h
          | ok rest' =>
            rw [hs] at h
            cases h
            have hcn : ∀ g t, Word.comment g t ∈ n.words → C t := fun g t ht => hc.head.1 g t (by
              simp only [Node.words, List.mem_append, List.mem_cons]
              exact .inr (.inr ht))
            exact ((sortNode_re w hA fuel v n _ _ _ _ _ n' hw.2.1.2.2.2 hw.2.1.2.1 hcn hn).pair f l ks src c rest).trans
              (.tail f _ c (sortEntries_re w hA fuel v rest acc schema t _ _ rest' hw.2.2.2 hc.head.2 hs))
end

/-! ### sections -/

theorem orderTable_re (order : List GroupItem → Option (List Nat))
    (ho : ∀ items rs, order items = some rs → rs.Perm (List.range items.length)) {b : Body} (h : BodyIn C b) :
    Re C arrays true b (orderTable order b) := by
  unfold orderTable
  refine sorted_re _ (fun last start g items rest hit => ?_) 0 h
  cases hr : order items with
  | none => exact .refl _
  | some rs => exact .perm (.inl rfl) rest (pick_perm items (ho items rs hr)).symm g

/-- A section with a body that has been sorted. -/
inductive ReS (C : Text → Prop) (arrays : Bool) : Section → Section → Prop where
  | mk (s : Section) {b : Body} (h : Re C arrays true s.body b) : ReS C arrays s { s with body := b }

/-- Sections with bodies that have been sorted. -/
inductive ReL (C : Text → Prop) (arrays : Bool) : List Section → List Section → Prop where
  | nil : ReL C arrays [] []
  | cons {s s' : Section} {ss ss' : List Section} : ReS C arrays s s' → ReL C arrays ss ss' → ReL C arrays (s :: ss) (s' :: ss')

theorem sortSection_re (w : EditWorld S) (hA : ArraysOk arrays w) {fuel : Nat} {v : TomlVersion} {schema : Option S} {root : DValue Scalar}
    {prev : List (AstSection Scalar)} {s s' : Section} (hw : s.WF) (hc : BodyIn C s.body)
    (h : sortSection w fuel v schema root prev s = .ok s') : ReS C arrays s s' := by
  unfold sortSection at h
  cases hh : (astSection v s).headerAccessors prev with
  | none => rw [hh] at h; cases h; exact .mk s (.refl _)
  | some header =>
    rw [hh] at h
    simp only at h
    cases hf : followSchema w fuel root header [] schema with
    | error e => rw [hf] at h; cases h
    | ok o =>
      rw [hf] at h
      cases o with
      | none => cases h; exact .mk s (.refl _)
      | some x =>
        obtain ⟨t, acc, schema'⟩ := x
        simp only at h
        cases hs : sortEntries w fuel v acc schema' t s.body with
        | error e => rw [hs] at h; cases h
        | ok b =>
          rw [hs] at h
          cases h
          have h1 := sortEntries_re w hA fuel v s.body acc schema' t _ _ b hw.body hc hs
          exact .mk s (h1.trans (orderTable_re _ (fun items rs hr => tableOrder_perm hr) (h1.comments hc)))

theorem sortEach_re (w : EditWorld S) (hA : ArraysOk arrays w) {fuel : Nat} {v : TomlVersion} {schema : Option S} {root : DValue Scalar} :
    (ss : List Section) → ∀ prev ss', (∀ s ∈ ss, s.WF ∧ BodyIn C s.body) → sortEach w fuel v schema root prev ss = .ok ss' → ReL C arrays ss ss'
  | [], prev, ss', _, h => by
    rw [sortEach] at h
    cases h
    exact .nil
  | s :: ss, prev, ss', hs, h => by
    rw [sortEach] at h
    cases h1 : sortSection w fuel v schema root prev s with
    | error e => rw [h1] at h; cases h
    | ok s' =>
      rw [h1] at h
      simp only at h
      cases h2 : sortEach w fuel v schema root (astSection v s :: prev) ss with
      | error e => rw [h2] at h; cases h
      | ok ss'' =>
        rw [h2] at h
        cases h
        have h0 := hs s List.mem_cons_self
        exact .cons (sortSection_re w hA h0.1 h0.2 h1) (sortEach_re w hA ss _ _ (fun s h => hs s (List.mem_cons_of_mem _ h)) h2)

end Tombi.Editing
