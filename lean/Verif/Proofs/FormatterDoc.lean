import Verif.Proofs.Formatter
/-! Proofs about the documents that `docOf` reads from a tree. -/
namespace Tombi.Formatter
open SyntaxKind
open Tombi.Format (AstKey)

theorem NoComma.append {a b : List Word} (ha : NoComma a) (hb : NoComma b) : NoComma (a ++ b) := by
  intro w hw
  rcases List.mem_append.mp hw with h | h
  · exact ha w h
  · exact hb w h

theorem NoComma.cons {a : Word} {b : List Word} (ha : a.isComma = false) (hb : NoComma b) : NoComma (a :: b) := by
  intro w hw
  rcases List.mem_cons.mp hw with h | h
  · rw [h]; exact ha
  · exact hb w h

theorem NoComma.nil : NoComma [] := fun _ h => by cases h

theorem noComma_comments (cs : List Text) : NoComma (commentWords cs) := by
  cases cs with
  | nil => exact .nil
  | cons c cs =>
    refine .cons rfl ?_
    intro w hw
    obtain ⟨x, _, rfl⟩ := List.mem_map.mp hw
    rfl

theorem noComma_trailing (c : Option Text) : NoComma (trailingWords c) := by
  cases c with
  | none => exact .nil
  | some c => exact .cons rfl .nil

theorem noComma_keys : (ks : List AstKey) → NoComma (keyWords ks)
  | [] => .nil
  | [_] => .cons rfl .nil
  | _ :: b :: ks => .cons rfl (.cons rfl (noComma_keys (b :: ks)))

theorem noComma_commaWords (c : Option Comma) : NoComma (commaWords c) := by
  cases c with
  | none => exact .nil
  | some c => exact (noComma_comments _).append (noComma_trailing _)

/-- No literal is a comma. -/
def Plain (n : Option Node) : Prop := ∀ x, n = some x → NoComma x.words

theorem Plain.none : Plain none := fun _ h => by cases h
theorem Plain.some {n : Node} (h : NoComma n.words) : Plain (some n) := fun x hx => by cases hx; exact h

mutual
theorem nodeOf_plain : (g : Green) → Plain (nodeOf g)
  | .token _ _ => .none
  | .node k cs => by
    rw [nodeOf.eq_def]
    simp only []
    split
    · exact .some ((((((noComma_comments _).append (.cons rfl (noComma_trailing _))).append
        (bodyOf_plain _ _ _ _ cs))).append (.cons rfl (noComma_trailing _))))
    · exact .some ((((((noComma_comments _).append (.cons rfl (noComma_trailing _))).append
        (bodyOf_plain _ _ _ _ cs))).append (.cons rfl (noComma_trailing _))))
    · split
      · rename_i ks v hks hv
        have := valueOf_plain cs v hv
        exact .some (((noComma_comments _).append (noComma_keys _)).append (.cons rfl this))
      · exact .none
    · split
      · rename_i h
        cases ht : tokenText k cs with
        | none => exact .none
        | some t =>
          refine .some ((noComma_comments _).append (.cons ?_ (noComma_trailing _)))
          cases k <;> first | rfl | (exact absurd h (by decide))
      · exact .none
theorem valueOf_plain : (gs : List Green) → Plain (valueOf gs)
  | [] => .none
  | g :: gs => by
    rw [valueOf]
    split
    · exact nodeOf_plain g
    · exact valueOf_plain gs
theorem bodyOf_plain (start group : SyntaxKind) (inside : Bool) (breaks : Nat) :
    (gs : List Green) → NoComma (bodyOf start group inside breaks gs).words
  | [] => .nil
  | .token k t :: gs => by
    rw [bodyOf]
    split
    · exact bodyOf_plain _ _ _ _ gs
    · exact bodyOf_plain _ _ _ _ gs
  | .node k cs :: gs => by
    rw [bodyOf]
    split
    · exact bodyOf_plain _ _ _ _ gs
    · split
      · exact (noComma_comments _).append (bodyOf_plain _ _ _ _ gs)
      · split
        · exact groupOf_plain _ cs _ (bodyOf_plain _ _ _ _ gs)
        · exact bodyOf_plain _ _ _ _ gs
theorem groupOf_plain (first : Option Nat) :
    (gs : List Green) → (b : Body) → NoComma b.words → NoComma (groupOf first gs b).words
  | [], b, h => by rw [groupOf]; exact h
  | g :: gs, b, h => by
    rw [groupOf]
    cases hn : nodeOf g with
    | none => exact groupOf_plain first gs b h
    | some n => exact ((nodeOf_plain g n hn).append (noComma_commaWords _)).append (groupOf_plain none gs b h)
end

theorem rootBody_plain (breaks : Nat) : (gs : List Green) → NoComma (rootBody breaks gs).words
  | [] => .nil
  | .token k t :: gs => by rw [rootBody]; exact rootBody_plain _ gs
  | .node k cs :: gs => by
    rw [rootBody]
    split
    · exact (noComma_comments _).append (rootBody_plain _ gs)
    · split
      · exact groupOf_plain _ cs _ (rootBody_plain _ gs)
      · exact rootBody_plain _ gs

theorem section_plain {s : Section} (h : NoComma s.body.words) : NoComma s.words :=
  ((((noComma_comments _).append (.cons rfl (noComma_keys _)))).append (.cons rfl (noComma_trailing _))).append h

theorem sectionOf_plain {breaks : Nat} {g : Green} {s : Section} (h : sectionOf breaks g = some s) : NoComma s.words := by
  have hb : ∀ e cs, NoComma (sectionBody e cs).words := fun e cs => rootBody_plain _ _
  unfold sectionOf at h
  split at h
  · simp only [Option.map_eq_some_iff] at h
    obtain ⟨ks, _, rfl⟩ := h
    exact section_plain (hb _ _)
  · simp only [Option.map_eq_some_iff] at h
    obtain ⟨ks, _, rfl⟩ := h
    exact section_plain (hb _ _)
  · cases h

theorem sectionsOf_plain (breaks : Nat) : (gs : List Green) → ∀ s ∈ sectionsOf breaks gs, NoComma s.words
  | [], _, h => by cases h
  | g :: gs, s, h => by
    rw [sectionsOf] at h
    split at h
    · rename_i s' hs'
      rcases List.mem_cons.mp h with h | h
      · rw [h]; exact sectionOf_plain hs'
      · exact sectionsOf_plain _ gs s h
    · exact sectionsOf_plain _ gs s h

theorem docOf_noComma (root : Green) : NoComma (docOf root).words := by
  refine (rootBody_plain _ _).append ?_
  intro w hw
  obtain ⟨ws, hws, hw⟩ := List.mem_flatten.mp hw
  obtain ⟨s, hs, rfl⟩ := List.mem_map.mp hws
  exact sectionsOf_plain _ _ s hs w hw

end Tombi.Formatter
