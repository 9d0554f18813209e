import Verif.Model.Tree
import Verif.Proofs.TokenSet
/-! The packed parser output is read back as the steps that were written. -/
namespace Tombi

/-- the step an event stands for -/
def Event.toStep : Event → Option Step
  | .start kind => if kind ≠ .TOMBSTONE then some (.enter kind) else none
  | .finish => some .exit
  | .token kind n => some (.token kind n)
  | .error e => some (.error e)

/-- the errors among the events -/
def errsOf (evs : List Event) : List PError :=
  evs.filterMap fun
    | .error e => some e
    | _ => none

theorem decode_token (E : List PError) (k : SyntaxKind) (n : BitVec 8) :
    Output.decode E ((BitVec.ofNat 32 k.toNat <<< Output.KIND_SHIFT)
        ||| (n.setWidth 32 <<< Output.N_INPUT_TOKEN_SHIFT) ||| Output.EVENT_MASK) =
      .ok (.token k n.toNat) := by
  have hk : ∀ k : SyntaxKind, ∀ n : BitVec 8,
      let e := ((BitVec.ofNat 32 k.toNat <<< Output.KIND_SHIFT)
        ||| (n.setWidth 32 <<< Output.N_INPUT_TOKEN_SHIFT) ||| Output.EVENT_MASK)
      e &&& Output.EVENT_MASK ≠ 0#32 ∧
      ((e &&& Output.TAG_MASK) >>> Output.TAG_SHIFT).toNat = Output.TOKEN_EVENT ∧
      SyntaxKind.ofNat? ((e &&& Output.KIND_MASK) >>> Output.KIND_SHIFT).toNat = some k ∧
      ((e &&& Output.N_INPUT_TOKEN_MASK) >>> Output.N_INPUT_TOKEN_SHIFT).toNat = n.toNat := by
    intro k
    cases k <;> decide +kernel
  obtain ⟨h1, h2, h3, h4⟩ := hk k n
  simp only [Output.decode]
  rw [if_neg h1, if_pos h2, h3, h4]

theorem decode_enter (E : List PError) (k : SyntaxKind) :
    Output.decode E ((BitVec.ofNat 32 k.toNat <<< Output.KIND_SHIFT)
        ||| (BitVec.ofNat 32 Output.ENTER_EVENT <<< Output.TAG_SHIFT) ||| Output.EVENT_MASK) =
      .ok (.enter k) := by
  cases k <;> rfl

theorem decode_exit (E : List PError) :
    Output.decode E ((BitVec.ofNat 32 Output.EXIT_EVENT <<< Output.TAG_SHIFT) ||| Output.EVENT_MASK) =
      .ok .exit := rfl

theorem decode_error {E : List PError} {i : Nat} {e : PError} (hi : i < 2 ^ 31) (h : E[i]? = some e) :
    Output.decode E (BitVec.ofNat 32 i <<< Output.ERROR_SHIFT) = .ok (.error e) := by
  have h1 : (BitVec.ofNat 32 i <<< Output.ERROR_SHIFT).toNat = 2 * i := by
    simp only [BitVec.toNat_shiftLeft, BitVec.toNat_ofNat, Output.ERROR_SHIFT, Nat.shiftLeft_eq]
    omega
  have h2 : (BitVec.ofNat 32 i <<< Output.ERROR_SHIFT) &&& Output.EVENT_MASK = 0#32 := by
    apply BitVec.eq_of_toNat_eq
    rw [BitVec.toNat_and, h1]
    show 2 * i &&& 1 = 0
    rw [Nat.and_one_is_mod]
    omega
  have h3 : ((BitVec.ofNat 32 i <<< Output.ERROR_SHIFT) >>> Output.ERROR_SHIFT).toNat = i := by
    rw [BitVec.toNat_ushiftRight, h1, Output.ERROR_SHIFT, Nat.shiftRight_eq_div_pow]
    omega
  rw [Output.decode, if_pos h2, h3, h]

theorem mapM_one {α β : Type} {f : α → Except Abort β} {a : α} {b : List α} {x : β} {y : List β}
    (ha : f a = .ok x) (hb : b.mapM f = .ok y) : ([a] ++ b).mapM f = .ok (x :: y) := by
  rw [List.singleton_append, List.mapM_cons, ha, hb]
  rfl

theorem process_spec (evs : List Event) (hn : ∀ k n, Event.token k n ∈ evs → n < 256) (o : Output) :
    (evs.foldl processEvent o).errors = o.errors ++ errsOf evs ∧
    ∃ new, (evs.foldl processEvent o).events = o.events ++ new ∧
      ∀ E, o.errors ++ errsOf evs <+: E → o.errors.length + (errsOf evs).length ≤ 2 ^ 31 →
        new.mapM (Output.decode E) = .ok (evs.filterMap Event.toStep) := by
  induction evs generalizing o with
  | nil => exact ⟨by simp [errsOf], [], by simp, fun _ _ _ => rfl⟩
  | cons ev evs ih =>
    have ih' := ih fun k n h => hn k n (List.mem_cons_of_mem _ h)
    rw [List.foldl_cons]
    obtain ⟨h1, new, h2, h3⟩ := ih' (processEvent o ev)
    cases ev with
    | start k =>
      by_cases hk : k ≠ .TOMBSTONE
      · simp only [processEvent, if_pos hk, Output.enterNode] at h1 h2 h3 ⊢
        refine ⟨by simpa [errsOf] using h1, _, by rw [h2, List.append_assoc], ?_⟩
        intro E hE hl
        have := h3 E (by simpa [errsOf] using hE) (by simpa [errsOf] using hl)
        rw [List.filterMap_cons, show Event.toStep (.start k) = some (.enter k) from if_pos hk]
        exact mapM_one (decode_enter E k) this
      · simp only [processEvent, if_neg hk] at h1 h2 h3 ⊢
        refine ⟨by simpa [errsOf] using h1, _, h2, ?_⟩
        intro E hE hl
        rw [List.filterMap_cons, show Event.toStep (.start k) = none from if_neg hk]
        exact h3 E (by simpa [errsOf] using hE) (by simpa [errsOf] using hl)
    | finish =>
      simp only [processEvent, Output.leaveNode] at h1 h2 h3 ⊢
      refine ⟨by simpa [errsOf] using h1, _, by rw [h2, List.append_assoc], ?_⟩
      intro E hE hl
      have := h3 E (by simpa [errsOf] using hE) (by simpa [errsOf] using hl)
      rw [List.filterMap_cons]
      exact mapM_one (decode_exit E) this
    | token k n =>
      simp only [processEvent, Output.token] at h1 h2 h3 ⊢
      refine ⟨by simpa [errsOf] using h1, _, by rw [h2, List.append_assoc], ?_⟩
      intro E hE hl
      have := h3 E (by simpa [errsOf] using hE) (by simpa [errsOf] using hl)
      have hlt := hn k n (by simp)
      have hb : (BitVec.ofNat 8 n).toNat = n := by simp; omega
      rw [List.filterMap_cons]
      exact mapM_one (x := .token k n) (by rw [decode_token, hb]) this
    | error e =>
      simp only [processEvent, Output.error] at h1 h2 h3 ⊢
      refine ⟨by simpa [errsOf] using h1, _, by rw [h2, List.append_assoc], ?_⟩
      intro E hE hl
      have hE' : o.errors ++ [e] ++ errsOf evs <+: E := by simpa [errsOf] using hE
      have := h3 E hE' (by simp [errsOf] at hl ⊢; omega)
      rw [List.filterMap_cons]
      refine mapM_one (x := .error e) ?_ this
      have hget : E[o.errors.length]? = some e := by
        obtain ⟨X, rfl⟩ := hE'
        simp
      have hlt : o.errors.length < 2 ^ 31 := by simp [errsOf] at hl; omega
      exact decode_error hlt hget

/-- the output of a list of events is read back -/
theorem steps_process (evs : List Event) (hn : ∀ k n, Event.token k n ∈ evs → n < 256)
    (he : (errsOf evs).length ≤ 2 ^ 31) :
    (process evs).steps = .ok (evs.filterMap Event.toStep) := by
  obtain ⟨h1, new, h2, h3⟩ := process_spec evs hn Output.empty
  unfold Output.steps process
  rw [h1, h2]
  simp only [Output.empty, List.nil_append]
  exact h3 _ (by simp [Output.empty]) (by simpa [Output.empty] using he)

end Tombi
