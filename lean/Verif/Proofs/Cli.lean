import Verif.Spec.Cli
/-!
The invariant of `tombi format`: what a file holds while its task is at a stage, under every schedule.
-/
namespace Tombi.Cli
open Spec

theorem set_same (f : Files) (p : Path) (t : Text) : f.set p t p = t := by simp [Files.set]

theorem set_other (f : Files) {p q : Path} (t : Text) (h : q ≠ p) : f.set p t q = f q := by simp [Files.set, h]

theorem writeAt_end (d chunk : Text) : writeAt d d.length chunk = d ++ chunk := by
  simp [writeAt]

/-- What holds of a task and its file. `clean` says that no operation has failed so far. -/
def Good (S : Setup) (f0 f : Files) (clean : Bool) (t : Task) : Prop :=
  match t.stage with
  | .reading buf => f t.path = f0 t.path ∧ buf <+: f0 t.path ∧ t.result = none
  | .resetting out =>
    f t.path = f0 t.path ∧ S.format t.path (f0 t.path) = some out ∧ out ≠ f0 t.path ∧ S.check = false ∧ t.result = none
  | .writing d r =>
    S.format t.path (f0 t.path) = some (d ++ r) ∧ d ++ r ≠ f0 t.path ∧ S.check = false ∧ f t.path = d ∧
      (t.result = none ∨ t.result = some .formatted)
  | .finished =>
    match t.result with
    | none => False
    | some .unchanged => f t.path = f0 t.path ∧ S.format t.path (f0 t.path) = some (f0 t.path)
    | some .formatted =>
      S.check = false ∧ ∃ out, S.format t.path (f0 t.path) = some out ∧ out ≠ f0 t.path ∧ f t.path <+: out ∧
        (clean = true → f t.path = out)
    | some .failed =>
      (f t.path = f0 t.path ∨ S.check = false ∧ PartlyWritten S f0 t.path (f t.path)) ∧
        (clean = true → f t.path = f0 t.path ∧
          (S.format t.path (f0 t.path) = none ∨ S.check = true ∧ S.format t.path (f0 t.path) ≠ some (f0 t.path)))

theorem Good.weaken {S : Setup} {f0 f : Files} {t : Task} {c c' : Bool} (h : Good S f0 f c t) (hc : c' = true → c = true) :
    Good S f0 f c' t := by
  obtain ⟨p, st, r⟩ := t
  cases st with
  | finished =>
    cases r with
    | none => exact h
    | some o =>
      cases o with
      | unchanged => exact h
      | formatted =>
        obtain ⟨h1, out, h2, h3, h4, h5⟩ := h
        exact ⟨h1, out, h2, h3, h4, fun e => h5 (hc e)⟩
      | failed => exact ⟨h.1, fun e => h.2 (hc e)⟩
  | _ => exact h

/-- Only the file of the task matters. -/
theorem Good.congr {S : Setup} {f0 f f' : Files} {t : Task} {c : Bool} (h : Good S f0 f c t) (hf : f' t.path = f t.path) :
    Good S f0 f' c t := by
  unfold Good at h ⊢
  rw [hf]
  exact h

theorem stepTask_path (S : Setup) (f : Files) (t : Task) (e : Event) : (stepTask S f t e).2.path = t.path := by
  obtain ⟨p, st, r⟩ := t
  cases st with
  | reading buf =>
    cases e with
    | go n =>
      simp only [stepTask]
      split
      · unfold afterRead
        split
        · rfl
        · split
          · rfl
          · split <;> rfl
      · rfl
    | _ => rfl
  | writing d rest => cases rest <;> cases e <;> rfl
  | _ => cases e <;> rfl

/-- A step changes no file but the one of its task, and none with `--check`. -/
theorem stepTask_files {S : Setup} {f0 f : Files} {c : Bool} {t : Task} (h : Good S f0 f c t) (e : Event) :
    (∀ q, q ≠ t.path → (stepTask S f t e).1 q = f q) ∧ (S.check = true → (stepTask S f t e).1 = f) := by
  obtain ⟨p, st, r⟩ := t
  cases st with
  | reading buf =>
    cases e with
    | go n =>
      simp only [stepTask]
      split <;> exact ⟨fun _ _ => rfl, fun _ => rfl⟩
    | _ => exact ⟨fun _ _ => rfl, fun _ => rfl⟩
  | resetting out =>
    have hc : S.check = false := h.2.2.2.1
    cases e with
    | go n => exact ⟨fun q hq => set_other _ _ hq, fun e => by rw [hc] at e; cases e⟩
    | _ => exact ⟨fun _ _ => rfl, fun _ => rfl⟩
  | writing d rest =>
    have hc : S.check = false := h.2.2.1
    cases rest with
    | nil => cases e <;> exact ⟨fun _ _ => rfl, fun _ => rfl⟩
    | cons x xs =>
      cases e with
      | go n => exact ⟨fun q hq => set_other _ _ hq, fun e => by rw [hc] at e; cases e⟩
      | _ => exact ⟨fun _ _ => rfl, fun _ => rfl⟩
  | finished => cases e <;> exact ⟨fun _ _ => rfl, fun _ => rfl⟩

theorem afterRead_good (S : Setup) (f0 f : Files) (c : Bool) (p : Path) (h : f p = f0 p) :
    Good S f0 f c (afterRead S p (f0 p)) := by
  unfold afterRead
  split
  · rename_i hn
    exact ⟨.inl h, fun _ => ⟨h, .inl hn⟩⟩
  · rename_i out ho
    split
    · rename_i he
      refine ⟨h, ?_⟩
      show S.format p (f0 p) = some (f0 p)
      rw [ho, ← he]
    · rename_i hne
      split
      · rename_i hc
        refine ⟨.inl h, fun _ => ⟨h, .inr ⟨hc, ?_⟩⟩⟩
        show S.format p (f0 p) ≠ some (f0 p)
        rw [ho]
        intro e
        exact hne (Option.some.inj e).symm
      · rename_i hc
        exact ⟨h, ho, fun e => hne e.symm, by simpa using hc, rfl⟩

theorem stepTask_good {S : Setup} {f0 f : Files} {c : Bool} {t : Task} (h : Good S f0 f c t) (e : Event) :
    Good S f0 (stepTask S f t e).1 (c && e != .fail) (stepTask S f t e).2 := by
  obtain ⟨p, st, r⟩ := t
  cases st with
  | reading buf =>
    obtain ⟨h1, h2, h3⟩ := h
    change f p = f0 p at h1
    change buf <+: f0 p at h2
    change r = none at h3
    cases e with
    | go n =>
      simp only [stepTask]
      split
      · rename_i hd
        have : buf = f0 p := by
          obtain ⟨z, hz⟩ := h2
          rw [h1, ← hz, List.drop_left] at hd
          rw [← hz, hd, List.append_nil]
        rw [this]
        exact afterRead_good S f0 f _ p h1
      · refine ⟨h1, ?_, h3⟩
        obtain ⟨z, hz⟩ := h2
        show buf ++ (List.drop buf.length (f p)).take (n + 1) <+: f0 p
        rw [h1, ← hz, List.drop_left]
        exact (List.prefix_append_right_inj buf).mpr (List.take_prefix _ _)
    | fail => exact ⟨.inl h1, fun e => by simp at e⟩
    | handOver => exact ⟨h1, h2, h3⟩
  | resetting out =>
    obtain ⟨h1, h2, h3, h4, h5⟩ := h
    cases e with
    | go n => exact ⟨h2, h3, h4, set_same _ _ _, .inl h5⟩
    | fail => exact ⟨.inl h1, fun e => by simp at e⟩
    | handOver => exact ⟨h1, h2, h3, h4, h5⟩
  | writing d rest =>
    obtain ⟨h1, h2, h3, h4, h5⟩ := h
    change S.format p (f0 p) = some (d ++ rest) at h1
    change d ++ rest ≠ f0 p at h2
    change f p = d at h4
    change r = none ∨ r = some .formatted at h5
    have hpart : PartlyWritten S f0 p (f p) := ⟨_, h1, h2, by rw [h4]; exact List.prefix_append _ _⟩
    have hfail : Good S f0 f false ⟨p, .finished, some (r.getD .failed)⟩ := by
      rcases h5 with rfl | rfl
      · exact ⟨.inr ⟨h3, hpart⟩, fun e => by simp at e⟩
      · exact ⟨h3, _, h1, h2, by show f p <+: _; rw [h4]; exact List.prefix_append _ _, fun e => by simp at e⟩
    cases rest with
    | nil =>
      cases e with
      | go n =>
        rw [List.append_nil] at h1 h2
        have : r.getD .formatted = .formatted := by rcases h5 with rfl | rfl <;> rfl
        show Good S f0 f _ ⟨p, .finished, some (r.getD .formatted)⟩
        rw [this]
        exact ⟨h3, d, h1, h2, by show f p <+: d; rw [h4]; exact List.prefix_refl _, fun _ => h4⟩
      | fail => exact hfail.weaken (fun e => by simp at e)
      | handOver => exact ⟨h1, h2, h3, h4, .inr rfl⟩
    | cons x xs =>
      cases e with
      | go n =>
        refine ⟨?_, ?_, h3, ?_, h5⟩
        · show S.format p (f0 p) = some ((d ++ (x :: xs).take (n + 1)) ++ (x :: xs).drop (n + 1))
          rw [List.append_assoc, List.take_append_drop, h1]
        · show (d ++ (x :: xs).take (n + 1)) ++ (x :: xs).drop (n + 1) ≠ f0 p
          rw [List.append_assoc, List.take_append_drop]
          exact h2
        · show f.set p (writeAt (f p) d.length _) p = _
          rw [set_same, h4, writeAt_end]
      | fail => exact hfail.weaken (fun e => by simp at e)
      | handOver => exact ⟨h1, h2, h3, h4, .inr rfl⟩
  | finished =>
    have : stepTask S f ⟨p, .finished, r⟩ e = (f, ⟨p, .finished, r⟩) := by cases e <;> rfl
    rw [this]
    exact h.weaken fun e => by simp at e; exact e.1

/-- The invariant of a state. -/
structure Inv (S : Setup) (f0 : Files) (ps : List Path) (clean : Bool) (s : State) : Prop where
  paths : s.tasks.map Task.path = ps
  good : ∀ (i : Nat) (t : Task), s.tasks[i]? = some t → Good S f0 s.files clean t
  others : ∀ q, q ∉ ps → s.files q = f0 q
  checked : S.check = true → s.files = f0

theorem inv_start (S : Setup) (f : Files) (ps : List Path) : Inv S f ps true (start f ps) where
  paths := by simp [start, Function.comp_def]
  good := by
    intro i t h
    simp only [start, List.getElem?_map, Option.map_eq_some_iff] at h
    obtain ⟨p, -, rfl⟩ := h
    exact ⟨rfl, List.nil_prefix, rfl⟩
  others := fun _ _ => rfl
  checked := fun _ => rfl

theorem inv_step {S : Setup} {f0 : Files} {ps : List Path} {clean : Bool} {s : State} (hn : S.check = true ∨ ps.Nodup)
    (h : Inv S f0 ps clean s) (i : Nat) (e : Event) : Inv S f0 ps (clean && e != .fail) (s.step S i e) := by
  unfold State.step
  cases hi : s.tasks[i]? with
  | none =>
    exact ⟨h.paths, fun j t ht => (h.good j t ht).weaken fun e => by simp at e; exact e.1, h.others, h.checked⟩
  | some t =>
    have hg := h.good i t hi
    have hfiles := stepTask_files hg e
    have hpi : ps[i]? = some t.path := by rw [← h.paths, List.getElem?_map, hi]; rfl
    refine ⟨?_, ?_, ?_, ?_⟩
    · show (s.tasks.set i _).map Task.path = ps
      rw [List.map_set, stepTask_path, h.paths]
      obtain ⟨hlt, he⟩ := List.getElem?_eq_some_iff.mp hpi
      rw [← he]
      exact List.set_getElem_self hlt
    · intro j t' hj
      change (s.tasks.set i (stepTask S s.files t e).2)[j]? = some t' at hj
      rw [List.getElem?_set] at hj
      by_cases hij : i = j
      · rw [if_pos hij] at hj
        by_cases hl : i < s.tasks.length
        · rw [if_pos hl] at hj
          obtain rfl := Option.some.inj hj
          exact stepTask_good hg e
        · rw [if_neg hl] at hj; cases hj
      · rw [if_neg hij] at hj
        refine ((h.good j t' hj).weaken (fun e => by simp at e; exact e.1)).congr ?_
        rcases hn with hc | hd
        · exact congrFun (hfiles.2 hc) _
        · refine hfiles.1 _ fun hp => hij ?_
          have hpj : ps[j]? = some t'.path := by rw [← h.paths, List.getElem?_map, hj]; rfl
          rw [hp] at hpj
          obtain ⟨h1, h2⟩ := List.getElem?_eq_some_iff.mp hpi
          obtain ⟨h3, h4⟩ := List.getElem?_eq_some_iff.mp hpj
          have hw := List.pairwise_iff_getElem.mp hd
          rcases Nat.lt_trichotomy i j with hl | hl | hl
          · exact absurd (h2.trans h4.symm) (hw i j h1 h3 hl)
          · exact hl
          · exact absurd (h4.trans h2.symm) (hw j i h3 h1 hl)
    · intro q hq
      rw [← h.others q hq]
      exact hfiles.1 q fun hp => hq (hp ▸ List.mem_of_getElem? hpi)
    · intro hc
      rw [← h.checked hc]
      exact hfiles.2 hc

theorem inv_run {S : Setup} {f0 : Files} {ps : List Path} {clean : Bool} {s : State} (hn : S.check = true ∨ ps.Nodup)
    (h : Inv S f0 ps clean s) (sched : Schedule) :
    Inv S f0 ps (clean && sched.all fun x => x.2 != .fail) (s.run S sched) := by
  induction sched generalizing s clean with
  | nil => simpa [State.run] using h
  | cons x xs ih =>
    have := ih (inv_step hn h x.1 x.2)
    rw [Bool.and_assoc] at this
    simpa [State.run] using this

theorem clean_of_noFailure {sched : Schedule} (h : NoFailure sched) : (sched.all fun x => x.2 != .fail) = true := by
  rw [List.all_eq_true]
  intro x hx
  simpa using h x hx

/-! ### summaries -/

theorem join_error (rs : List Outcome) (m : Summary) :
    (rs.foldl Summary.join m).error = m.error + rs.count .failed := by
  induction rs generalizing m with
  | nil => simp
  | cons r rs ih => cases r <;> simp [ih, Summary.join] <;> omega

theorem join_total (rs : List Outcome) (m : Summary) :
    (rs.foldl Summary.join m).success + (rs.foldl Summary.join m).notNeeded + (rs.foldl Summary.join m).skipped +
      (rs.foldl Summary.join m).error = m.success + m.notNeeded + m.skipped + m.error + rs.length := by
  induction rs generalizing m with
  | nil => simp
  | cons r rs ih =>
    rw [List.foldl_cons, ih]
    cases r <;> simp [Summary.join] <;> omega

theorem entry_total (S : Setup) (es : List Entry) (m : Summary) :
    (es.foldl (Summary.entry S) m).success + (es.foldl (Summary.entry S) m).notNeeded + (es.foldl (Summary.entry S) m).skipped +
      (es.foldl (Summary.entry S) m).error + (spawned S es).length = m.success + m.notNeeded + m.skipped + m.error + es.length := by
  induction es generalizing m with
  | nil => simp [spawned]
  | cons e es ih =>
    have := ih (Summary.entry S m e)
    rw [List.foldl_cons]
    cases e with
    | found p =>
      simp only [spawned, Summary.entry] at this ⊢
      cases h1 : S.enabled p <;> cases h2 : S.opens p <;> simp only [h1, h2, Bool.and_true, Bool.and_false,
        if_true, if_false, List.length_cons, Bool.false_eq_true] at this ⊢ <;> omega
    | skipped p => simp only [spawned, Summary.entry, List.length_cons] at this ⊢; omega
    | error => simp only [spawned, Summary.entry, List.length_cons] at this ⊢; omega

/-- The entries that count as errors before a task starts. -/
def refused (S : Setup) : Entry → Bool
  | .found p => S.enabled p && !S.opens p
  | .skipped _ => false
  | .error => true

theorem entry_error (S : Setup) (es : List Entry) (m : Summary) :
    (es.foldl (Summary.entry S) m).error = m.error + es.countP (refused S) := by
  induction es generalizing m with
  | nil => simp
  | cons e es ih =>
    rw [List.foldl_cons, ih]
    cases e with
    | found p => cases h1 : S.enabled p <;> cases h2 : S.opens p <;> simp [Summary.entry, refused, h1, h2] <;> omega
    | skipped p => simp [Summary.entry, refused]
    | error => simp only [Summary.entry, List.countP_cons, refused, if_true]; omega

theorem mem_spawned {S : Setup} {es : List Entry} {p : Path} :
    p ∈ spawned S es ↔ Entry.found p ∈ es ∧ S.enabled p = true ∧ S.opens p = true := by
  induction es with
  | nil => simp [spawned]
  | cons e es ih =>
    cases e with
    | found q =>
      simp only [spawned]
      split
      · rename_i h
        simp only [Bool.and_eq_true] at h
        simp only [List.mem_cons, ih, Entry.found.injEq]
        constructor
        · rintro (rfl | h')
          · exact ⟨.inl rfl, h⟩
          · exact ⟨.inr h'.1, h'.2⟩
        · rintro ⟨rfl | h', h''⟩
          · exact .inl rfl
          · exact .inr ⟨h', h''⟩
      · rename_i h
        simp only [Bool.and_eq_true] at h
        simp only [List.mem_cons, ih, Entry.found.injEq]
        constructor
        · rintro ⟨h1, h2⟩; exact ⟨.inr h1, h2⟩
        · rintro ⟨rfl | h1, h2⟩
          · exact absurd h2 h
          · exact ⟨h1, h2⟩
    | skipped q => simp [spawned, ih]
    | error => simp [spawned, ih]

theorem exit_zero (S : Setup) (es : List Entry) (rs : List Outcome) :
    (summary S es rs).exitCode = 0 ↔ (∀ e ∈ es, refused S e = false) ∧ Outcome.failed ∉ rs := by
  unfold Summary.exitCode summary
  rw [join_error, entry_error]
  constructor
  · intro h
    have h0 : List.countP (refused S) es = 0 ∧ rs.count .failed = 0 := by
      split at h
      · cases h
      · simp at *; omega
    exact ⟨fun e he => by simpa using List.countP_eq_zero.mp h0.1 e he, List.count_eq_zero.mp h0.2⟩
  · rintro ⟨h1, h2⟩
    have : List.countP (refused S) es = 0 := List.countP_eq_zero.mpr fun e he => by simp [h1 e he]
    rw [this, List.count_eq_zero.mpr h2]
    rfl

end Tombi.Cli

namespace Tombi.Cli
open Spec

/-! ### every task comes to its end -/

/-- How many turns a task needs at most. -/
def rank (S : Setup) (f0 : Files) (t : Task) : Nat :=
  match t.stage with
  | .reading buf => ((f0 t.path).length - buf.length) + ((S.format t.path (f0 t.path)).getD []).length + 3
  | .resetting out => out.length + 2
  | .writing _ r => r.length + 1
  | .finished => 0

theorem rank_step {S : Setup} {f0 f : Files} {c : Bool} {t : Task} (h : Good S f0 f c t) (e : Event) :
    rank S f0 (stepTask S f t e).2 ≤ rank S f0 t ∧
      ∀ n, e = .go n → rank S f0 (stepTask S f t e).2 ≤ rank S f0 t - 1 := by
  obtain ⟨p, st, r⟩ := t
  cases st with
  | reading buf =>
    obtain ⟨h1, h2, h3⟩ := h
    change f p = f0 p at h1
    change buf <+: f0 p at h2
    cases e with
    | go n =>
      refine (fun h => ⟨Nat.le_trans h (Nat.sub_le _ _), fun _ _ => h⟩) ?_
      simp only [stepTask]
      split
      · rename_i hd
        have hb : buf = f0 p := by
          obtain ⟨z, hz⟩ := h2
          rw [h1, ← hz, List.drop_left] at hd
          rw [← hz, hd, List.append_nil]
        subst hb
        have hr : rank S f0 (afterRead S p (f0 p)) ≤ ((S.format p (f0 p)).getD []).length + 2 := by
          unfold afterRead
          cases ho : S.format p (f0 p) with
          | none => exact Nat.zero_le _
          | some out =>
            by_cases h5 : f0 p = out
            · simp only [if_pos h5]; exact Nat.zero_le _
            · by_cases h6 : S.check = true
              · simp only [if_neg h5, if_pos h6]; exact Nat.zero_le _
              · simp only [if_neg h5, if_neg h6]; exact Nat.le_refl _
        refine Nat.le_trans hr ?_
        simp [rank]
      · rename_i hd
        obtain ⟨z, hz⟩ := h2
        rw [h1, ← hz, List.drop_left] at hd ⊢
        simp only [rank]
        rw [← hz]
        cases z with
        | nil => exact absurd rfl hd
        | cons x xs => simp; omega
    | fail => exact ⟨Nat.zero_le _, fun _ e => by cases e⟩
    | handOver => exact ⟨Nat.le_refl _, fun _ e => by cases e⟩
  | resetting out =>
    cases e with
    | go n =>
      refine (fun h => ⟨Nat.le_trans h (Nat.sub_le _ _), fun _ _ => h⟩) ?_
      simp [stepTask, rank]
    | fail => exact ⟨Nat.zero_le _, fun _ e => by cases e⟩
    | handOver => exact ⟨Nat.le_refl _, fun _ e => by cases e⟩
  | writing d rest =>
    cases rest with
    | nil => cases e <;> simp [stepTask, rank]
    | cons x xs =>
      cases e with
      | go n =>
        refine (fun h => ⟨Nat.le_trans h (Nat.sub_le _ _), fun _ _ => h⟩) ?_
        simp [stepTask, rank]
      | fail => exact ⟨Nat.zero_le _, fun _ e => by cases e⟩
      | handOver => exact ⟨Nat.le_refl _, fun _ e => by cases e⟩
  | finished =>
    have : stepTask S f ⟨p, .finished, r⟩ e = (f, ⟨p, .finished, r⟩) := by cases e <;> rfl
    rw [this]
    exact ⟨Nat.le_refl _, fun _ _ => Nat.zero_le _⟩

theorem rank_zero {S : Setup} {f0 : Files} {t : Task} (h : rank S f0 t = 0) : t.stage = .finished := by
  unfold rank at h
  split at h
  · omega
  · omega
  · omega
  · assumption

/-- How many turns a task gets. -/
def turns (sched : Schedule) (i : Nat) : Nat :=
  sched.countP fun x => x.1 == i && (match x.2 with | .go _ => true | _ => false)

theorem rank_run {S : Setup} {f0 : Files} {ps : List Path} {clean : Bool} (hn : S.check = true ∨ ps.Nodup) (sched : Schedule)
    {s : State} (h : Inv S f0 ps clean s) {i : Nat} {t : Task} (ht : s.tasks[i]? = some t) :
    ∃ t', (s.run S sched).tasks[i]? = some t' ∧ rank S f0 t' ≤ rank S f0 t - turns sched i := by
  induction sched generalizing s clean t with
  | nil => exact ⟨t, ht, by simp [turns]⟩
  | cons x xs ih =>
    obtain ⟨j, e⟩ := x
    have hstep : ∃ t1, (s.step S j e).tasks[i]? = some t1 ∧
        rank S f0 t1 ≤ rank S f0 t - turns [(j, e)] i := by
      unfold State.step
      cases hj : s.tasks[j]? with
      | none =>
        refine ⟨t, ht, ?_⟩
        have : j ≠ i := by rintro rfl; rw [hj] at ht; cases ht
        simp [turns, this]
      | some u =>
        by_cases hji : j = i
        · subst hji
          rw [ht] at hj
          obtain rfl := Option.some.inj hj
          refine ⟨(stepTask S s.files t e).2, ?_, ?_⟩
          · show (s.tasks.set j _)[j]? = _
            rw [List.getElem?_set_self (List.getElem?_eq_some_iff.mp ht).1]
          · have hr := rank_step (h.good j t ht) e
            cases e with
            | go n => have := hr.2 n rfl; simpa [turns] using this
            | fail => simpa [turns] using hr.1
            | handOver => simpa [turns] using hr.1
        · refine ⟨t, ?_, by simp [turns, hji]⟩
          show (s.tasks.set j _)[i]? = _
          rw [List.getElem?_set_ne hji]
          exact ht
    obtain ⟨t1, h1, h2⟩ := hstep
    obtain ⟨t2, h3, h4⟩ := ih (inv_step hn h j e) h1
    refine ⟨t2, h3, ?_⟩
    have : turns ((j, e) :: xs) i = turns xs i + turns [(j, e)] i := by
      simp only [turns, List.countP_cons, List.countP_nil]
      omega
    omega

end Tombi.Cli
