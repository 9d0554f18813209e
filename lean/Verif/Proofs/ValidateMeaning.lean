import Verif.Proofs.ValidateStep

/-!
# A schema graph whose recursion comes to an end has exactly one meaning
-/

namespace Tombi.Spec.Validate
open Tombi.Validate (Key Value Ty Lit Rest Items Additional Node Schema Entry Env Route Uses Descends)

theorem count_mono {P P' : Value → Prop} {xs : List Value} {c : Nat}
    (hc : Count P xs c) : (∀ v ∈ xs, P v ↔ P' v) → Count P' xs c := by
  induction hc with
  | nil => exact fun _ => .nil
  | yes hp _ ih => exact fun h => .yes ((h _ (by simp)).1 hp) (ih fun v hv => h v (by simp [hv]))
  | no hn _ ih => exact fun h => .no (fun hp => hn ((h _ (by simp)).2 hp)) (ih fun v hv => h v (by simp [hv]))

/-- The meaning of an object only depends on the meaning of its sub-schemas. -/
theorem nodeHolds_mono {E : Env} {H H' : Nat → Value → Prop} {n : Node} {v : Value}
    (h : ∀ {route s w}, Uses n v route s w → (H s w ↔ H' s w)) (hn : NodeHolds E H n v) : NodeHolds E H' n v := by
  obtain ⟨hg, ht, ha⟩ := hn
  refine ⟨hg, ?_, ?_⟩
  · cases v with
    | bool b => trivial
    | int i => exact ht
    | str s => exact ht
    | arr xs =>
      simp only [Typed] at ht ⊢
      obtain ⟨h1, h2, h3, h4, h5⟩ := ht
      refine ⟨?_, ?_, h3, h4, h5⟩
      · intro i x hx
        have := h1 i x hx
        have hx := List.mem_of_getElem? hx
        simp only [ItemHolds] at this ⊢
        cases hi : n.items with
        | absent => trivial
        | all s =>
          rw [hi] at this
          exact (h (.element (.all hi) rfl hx)).1 this
        | tuple ps rest =>
          rw [hi] at this
          refine ⟨fun s hs => (h (.element (.pre hi (List.mem_of_getElem? hs)) rfl hx)).1 (this.1 s hs), fun hle => ?_⟩
          have hr := this.2 hle
          cases rest with
          | absent => trivial
          | allowed b => exact hr
          | schema s => exact (h (.element (.rest hi) rfl hx)).1 hr
      · intro s hs
        obtain ⟨c, hc, hm⟩ := h2 s hs
        exact ⟨c, count_mono hc fun x hx => h (.element (.contains hs) rfl hx), hm⟩
    | tbl kvs =>
      simp only [Typed] at ht ⊢
      obtain ⟨h1, h2, h3, h4, h5, h6, h7, h8, h9⟩ := ht
      refine ⟨?_, ?_, ?_, h4, h5, h6, ?_, h8, ?_⟩
      · intro k v s hm hl
        have hmem : (k, s) ∈ n.properties := by
          have hgen : ∀ l : List (Key × Nat), l.lookup k = some s → (k, s) ∈ l := by
            intro l
            induction l with
            | nil => intro h; simp at h
            | cons a l ih =>
              intro h
              obtain ⟨k', s'⟩ := a
              simp only [List.lookup_cons] at h
              split at h
              · rename_i hk
                simp only [beq_iff_eq] at hk
                simp only [Option.some.injEq] at h
                subst hk h
                simp
              · exact List.mem_cons.2 (.inr (ih h))
          exact hgen _ hl
        exact (h (.entry (.prop hmem) rfl hm)).1 (h1 k v s hm hl)
      · intro k v ps r s m hm hp hr he hk
        exact (h (.entry (.pattern hp hr) rfl hm)).1 (h2 k v ps r s m hm hp hr he hk)
      · intro k v hm hd
        have := h3 k v hm hd
        cases hn : n.additional with
        | absent => trivial
        | allowed b => rw [hn] at this; exact this
        | schema s => rw [hn] at this; exact (h (.entry (.additional hn) rfl hm)).1 this
      · intro k s hk hp
        exact (h (.name hp rfl hk)).1 (h7 k s hk hp)
      · intro k s hm hk
        exact (h (.dependent hm)).1 (h9 k s hm hk)
  · obtain ⟨h1, h2, h3, h4, h5, h6⟩ := ha
    refine ⟨?_, ?_, ?_, ?_, ?_, ?_⟩
    · intro ms m hm hmem
      exact (h (.allOf hm hmem)).1 (h1 ms m hm hmem)
    · intro ms hm
      obtain ⟨m, hmem, hv⟩ := h2 ms hm
      exact ⟨m, hmem, (h (.anyOf hm hmem)).1 hv⟩
    · intro ms hm
      obtain ⟨i, m, hi, hv, hu⟩ := h3 ms hm
      refine ⟨i, m, hi, (h (.oneOf hm (List.mem_of_getElem? hi))).1 hv, ?_⟩
      intro j m' hj hv'
      exact hu j m' hj ((h (.oneOf hm (List.mem_of_getElem? hj))).2 hv')
    · intro m hm hv
      exact h4 m hm ((h (.not hm)).2 hv)
    · intro i t hi ht hv
      exact (h (.thenS ht)).1 (h5 i t hi ht ((h (.ifS hi)).2 hv))
    · intro i e hi he hv
      exact (h (.elseS he)).1 (h6 i e hi he fun hc => hv ((h (.ifS hi)).1 hc))

theorem nodeHolds_congr {E : Env} {H H' : Nat → Value → Prop} {n : Node} {v : Value}
    (h : ∀ {route s w}, Uses n v route s w → (H s w ↔ H' s w)) : NodeHolds E H n v ↔ NodeHolds E H' n v :=
  ⟨nodeHolds_mono h, nodeHolds_mono fun hs => (h hs).symm⟩

/-- The meaning up to a depth. -/
def approx (E : Env) : Nat → Nat → Value → Prop
  | 0, _, _ => False
  | f + 1, id, v => match (E.entry id).schema with
    | .always b => b = true
    | .obj n => NodeHolds E (approx E f) n v

theorem approx_eq {E : Env} {level : Nat → Nat} {measure : Nat → Value → Nat} (hd : Descends E level measure) :
    ∀ (f f' id : Nat) (v : Value), measure id v < f → measure id v < f' → (approx E f id v ↔ approx E f' id v)
  | 0, _, _, _, h, _ => by omega
  | _ + 1, 0, _, _, _, h => by omega
  | f + 1, f' + 1, id, v, h, h' => by
    simp only [approx]
    cases hs : (E.entry id).schema with
    | always b => rfl
    | obj n =>
      apply nodeHolds_congr
      intro route s w hu
      have := hd.less hs hu
      exact approx_eq hd f f' s w (by omega) (by omega)

/-- Such a graph has a meaning. -/
theorem meaning_exists {E : Env} {level : Nat → Nat} {measure : Nat → Value → Nat} (hd : Descends E level measure) :
    ∃ H, Meaning E H := by
  refine ⟨fun id v => approx E (measure id v + 1) id v, ?_⟩
  intro id v
  simp only [approx]
  cases hs : (E.entry id).schema with
  | always b => rfl
  | obj n =>
    apply nodeHolds_congr
    intro route s w hu
    have := hd.less hs hu
    exact approx_eq hd (measure id v) (measure s w + 1) s w (by omega) (by omega)

/-- … and only one. -/
theorem meaning_unique {E : Env} {level : Nat → Nat} {measure : Nat → Value → Nat} (hd : Descends E level measure)
    {H H' : Nat → Value → Prop} (hH : Meaning E H) (hH' : Meaning E H') (id : Nat) (v : Value) : H id v ↔ H' id v := by
  have : ∀ k id v, measure id v < k → (H id v ↔ H' id v) := by
    intro k
    induction k with
    | zero => intro id v h; omega
    | succ k ih =>
      intro id v h
      rw [hH id v, hH' id v]
      cases hs : (E.entry id).schema with
      | always b => rfl
      | obj n =>
        apply nodeHolds_congr
        intro route s w hu
        have := hd.less hs hu
        exact ih s w (by omega)
  exact this _ id v (Nat.lt_succ_self _)

end Tombi.Spec.Validate
