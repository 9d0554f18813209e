import Verif.Proofs.Lsp
/-! C42, C62, C63: documents and diagnostics of the language server under every schedule of its handlers. -/
namespace Tombi.Lsp
open Spec.Lsp
variable {T V D : Type} [DecidableEq V]

/-- C42: Any number of changes, each with a text and a version of its own, and any number of requests for
diagnostics run under any schedule. Once all have finished, the document has the text and the version of the
change that was started last, and the TOML version of that text. -/
theorem C42_converges_partial (E : Env T V D) (s0 : State T V D) (hd : s0.doc.isSome) (ho : OnlyChanges s0.procs)
    (hv : DistinctVersions s0.procs) (schedule : List (Nat × Bool)) (hf : Finished (run E s0 schedule))
    (i : Nat) (t : T) (v : Int) (hc : Changes s0.procs i t v) (hl : StartedLast s0.procs schedule i) :
    (run E s0 schedule).doc = some ⟨t, some v, E.resolve t⟩ := by
  obtain ⟨allowed, h⟩ := last_change E s0 hd ho hv schedule i t v hc hl
  obtain ⟨p, tv, h1, h2, _, h4⟩ := h.self
  have hp := hf p (List.mem_of_getElem? h1)
  subst hp
  rcases h4 with rfl | ⟨_, h⟩ | ⟨_, h⟩ | ⟨_, h⟩
  · exact h2
  · cases h
  · cases h
  · cases h

/-- C42: In particular, when handlers are started in the order of their notifications, the document has the text
of the last change once all have finished. -/
theorem C42_in_order_partial (E : Env T V D) (s0 : State T V D) (hd : s0.doc.isSome) (ho : OnlyChanges s0.procs)
    (hv : DistinctVersions s0.procs) (schedule : List (Nat × Bool)) (hf : Finished (run E s0 schedule))
    (hs : StartedInOrder schedule s0.procs.length)
    (i : Nat) (t : T) (v : Int) (hc : Changes s0.procs i t v)
    (hlast : ∀ j t' v', Changes s0.procs j t' v' → j ≤ i) :
    (run E s0 schedule).doc = some ⟨t, some v, E.resolve t⟩ := by
  refine C42_converges_partial E s0 hd ho hv schedule hf i t v hc ?_
  have hran := finished_ran E s0 hd ho schedule hf i t v hc
  have hlen : i < s0.procs.length := by
    rcases Nat.lt_or_ge i s0.procs.length with h' | h'
    · exact h'
    · rw [Changes, List.getElem?_eq_none h'] at hc; cases hc
  -- the first step of `i`
  have first : ∀ l : List (Nat × Bool), i ∈ l.map (·.1) → ∃ pre b post, l = pre ++ (i, b) :: post ∧ i ∉ pre.map (·.1) := by
    intro l
    induction l with
    | nil => intro h; simp at h
    | cons x l ih =>
      intro h
      by_cases hx : x.1 = i
      · exact ⟨[], x.2, l, by simp [← hx], by simp⟩
      · have : i ∈ l.map (·.1) := by
          rcases List.mem_cons.mp h with h | h
          · exact absurd h.symm hx
          · exact h
        obtain ⟨pre, b, post, rfl, h2⟩ := ih this
        refine ⟨x :: pre, b, post, rfl, ?_⟩
        simp only [List.map_cons, List.mem_cons, not_or]
        exact ⟨fun h => hx h.symm, h2⟩
  obtain ⟨pre, b, post, rfl, hnot⟩ := first schedule hran
  refine ⟨pre, b, post, rfl, hnot, fun j t' v' hcj _ => ?_⟩
  rcases Nat.lt_or_eq_of_le (hlast j t' v' hcj) with h | h
  · exact .inr (hs pre i b post rfl j h hlen)
  · exact .inl h

/-! A concrete instance: texts are numbers, a text above 9 has the TOML version 1, the others 0. -/
private def env : Env Nat Nat (Nat × Nat) :=
  { resolve := fun t => if t > 9 then 1 else 0
    lint := fun t tv => (t, tv)
    push := false
    tracked := false }

private def start (procs : List (Proc Nat Nat (Nat × Nat))) : State Nat Nat (Nat × Nat) :=
  { doc := some ⟨5, some 1, 0⟩, cache := none, procs := procs, reports := [] }

private def at' (l : List Nat) : List (Nat × Bool) := l.map fun i => (i, false)

/-- two changes whose critical sections alternate -/
private def two : List (Proc Nat Nat (Nat × Nat)) := [.changeApply (some 10) 2, .changeApply (some 6) 3]

example : OnlyChanges two ∧ DistinctVersions two ∧ StartedLast two (at' [0, 0, 1, 0, 1, 0, 1, 1]) 1
    ∧ (run env (start two) (at' [0, 0, 1, 0, 1, 0, 1, 1])).procs = [.done, .done]
    ∧ (run env (start two) (at' [0, 0, 1, 0, 1, 0, 1, 1])).doc = some ⟨6, some 3, 0⟩ := by
  refine ⟨?_, ?_, ?_, by decide, by decide⟩
  · intro p hp
    simp only [two, List.mem_cons, List.not_mem_nil, or_false] at hp
    rcases hp with rfl | rfl
    · exact .inr (.inr ⟨_, _, rfl⟩)
    · exact .inr (.inr ⟨_, _, rfl⟩)
  · intro i j t t' v h1 h2
    match i, j with
    | 0, 0 => rfl
    | 1, 1 => rfl
    | 0, 1 => simp [Changes, two] at h1 h2; omega
    | 1, 0 => simp [Changes, two] at h1 h2; omega
    | i + 2, _ => simp [Changes, two] at h1
    | _, j + 2 => simp [Changes, two] at h2
  · exact ⟨at' [0, 0], false, at' [0, 1, 0, 1, 1], rfl, by decide, fun j _ _ hc hj => by
      have : j = 0 ∨ j = 1 ∨ j = 0 ∨ j = 1 := by simpa [at'] using hj
      have : j = 0 ∨ j = 1 := by omega
      rcases this with rfl | rfl
      · exact .inr (by decide)
      · exact .inl rfl⟩

/-- C42, in full, is false: after a change without a text the TOML version of the change before it, still to be
applied, is dropped. -/
theorem C42_no_text_false : ∃ (s0 : State Nat Nat (Nat × Nat)) (schedule : List (Nat × Bool)) (d : Doc Nat Nat),
    s0.procs = [.changeApply (some 10) 2, .changeApply none 3] ∧ Finished (run env s0 schedule)
      ∧ (run env s0 schedule).doc = some d ∧ d.text = 10 ∧ d.toml ≠ env.resolve d.text :=
  ⟨start [.changeApply (some 10) 2, .changeApply none 3], at' [0, 1, 0, 0, 0, 1, 1], ⟨10, some 3, 0⟩, rfl,
    by intro p hp; revert hp; revert p; decide, by decide, rfl, by decide⟩

/-- C42, in full, is false when two changes have the same version: the text of the one started first may win. -/
theorem C42_same_version_false : ∃ (s0 : State Nat Nat (Nat × Nat)) (schedule : List (Nat × Bool)),
    s0.procs = [.changeApply (some 10) 2, .changeApply (some 6) 2] ∧ Finished (run env s0 schedule)
      ∧ StartedInOrder schedule 2 ∧ (run env s0 schedule).doc = some ⟨10, some 2, 1⟩ := by
  refine ⟨start [.changeApply (some 10) 2, .changeApply (some 6) 2], at' [0, 1, 0, 0, 1, 1, 0, 0], rfl,
    by intro p hp; revert hp; revert p; decide, ?_, by decide⟩
  intro pre i b post h j hj hi
  have : j = 0 ∧ i = 1 := by omega
  obtain ⟨rfl, rfl⟩ := this
  cases pre with
  | nil => simp [at'] at h
  | cons x pre =>
    simp only [at', List.map_cons, List.cons_append, List.cons.injEq] at h
    simp [← h.1]

/-- C62 is false: a change that arrives while the TOML version of the opened text is still being resolved is
lost, although its handler is started after that of the opening. -/
theorem C62_change_lost_false : ∃ (s0 : State Nat Nat (Nat × Nat)) (schedule : List (Nat × Bool)),
    s0.doc = none ∧ s0.procs = [.openResolve 5 1, .changeApply (some 6) 2] ∧ Finished (run env s0 schedule)
      ∧ schedule.map (·.1) = [0, 1, 0, 0] ∧ (run env s0 schedule).doc = some ⟨5, some 1, 0⟩ :=
  ⟨{ doc := none, cache := none, procs := [.openResolve 5 1, .changeApply (some 6) 2], reports := [] },
    at' [0, 1, 0, 0], rfl, rfl, by intro p hp; revert hp; revert p; decide, rfl, by decide⟩

/-- C62: When the document has been inserted before the first change is started, no change is lost: once all have
finished, the document has the text of the change started last and its TOML version. -/
theorem C62_open_then_change_partial (E : Env T V D) (cache : Option (Result D)) (procs : List (Proc T V D))
    (text : T) (version : Int) (ho : OnlyChanges procs) (hv : DistinctVersions procs) (b1 b2 : Bool)
    (schedule : List (Nat × Bool))
    (hf : Finished (run E ⟨none, cache, procs ++ [.openResolve text version], []⟩
      ((procs.length, b1) :: (procs.length, b2) :: schedule)))
    (i : Nat) (t : T) (v : Int) (hc : Changes procs i t v) (hl : StartedLast procs schedule i) :
    (run E ⟨none, cache, procs ++ [.openResolve text version], []⟩
      ((procs.length, b1) :: (procs.length, b2) :: schedule)).doc = some ⟨t, some v, E.resolve t⟩ := by
  have hopen : run E ⟨none, cache, procs ++ [.openResolve text version], []⟩
      ((procs.length, b1) :: (procs.length, b2) :: schedule)
      = run E ⟨some ⟨text, some version, E.resolve text⟩, cache, procs ++ [.clear true], []⟩ schedule := by
    simp only [run_cons]
    congr 1
    have hset : ∀ p q : Proc T V D, (procs ++ [p]).set procs.length q = procs ++ [q] := by
      intro p q; simp
    have hget : ∀ p : Proc T V D, (procs ++ [p])[procs.length]? = some p := by intro p; simp
    simp only [stepAt, hget, step, hset, List.append_nil]
  have hch : ∀ j t' v', Changes (procs ++ [.clear true]) j t' v' ↔ Changes procs j t' v' := by
    intro j t' v'
    unfold Changes
    rcases Nat.lt_or_ge j procs.length with h | h
    · rw [List.getElem?_append_left h]
    · rw [List.getElem?_append_right h, List.getElem?_eq_none h]
      cases j - procs.length <;> simp
  rw [hopen] at hf ⊢
  refine C42_converges_partial E ⟨_, cache, procs ++ [.clear true], []⟩ rfl ?_ ?_ schedule hf i t v
    ((hch i t v).mpr hc) ?_
  · intro p hp
    rcases List.mem_append.mp hp with hp | hp
    · exact ho p hp
    · exact .inr (.inl ⟨true, by simpa using hp⟩)
  · intro i j t t' v h1 h2
    exact hv i j t t' v ((hch _ _ _).mp h1) ((hch _ _ _).mp h2)
  · obtain ⟨pre, b, post, h1, h2, h3⟩ := hl
    exact ⟨pre, b, post, h1, h2, fun j t' v' hcj hj => h3 j t' v' ((hch _ _ _).mp hcj) hj⟩

/-! ### diagnostics -/

/-- C63: Under any schedule of changes and requests for diagnostics, every reported and every cached result was
computed for the text of its version. -/
theorem C63_text_of_version (E : Env T V D) (s0 : State T V D) (ho : OnlyChanges s0.procs)
    (hcache : s0.cache = none) (hrep : s0.reports = []) (schedule : List (Nat × Bool)) (r : Result D)
    (hr : r ∈ (run E s0 schedule).reports ∨ (run E s0 schedule).cache = some r) :
    ∃ t tv, TextOf s0.doc s0.procs r.version t ∧ r.diagnostics = E.lint t tv := by
  have h0 : DInv E s0.doc s0.procs (fun _ => True) s0 := by
    refine ⟨fun d hd => ⟨.inl ⟨d, hd, rfl, rfl⟩, trivial⟩, (fun r h => by rw [hcache] at h; cases h), fun p hp => ?_,
      (fun r h => by rw [hrep] at h; cases h)⟩
    rcases ho p hp with rfl | ⟨b, rfl⟩ | ⟨t, v, rfl⟩
    · exact trivial
    · exact trivial
    · obtain ⟨i, hi, he⟩ := List.mem_iff_getElem.mp hp
      exact ⟨i, t, rfl, by rw [Changes, List.getElem?_eq_getElem hi, he]⟩
  have h := dinv_run (fun _ => trivial) schedule h0
  have : Right E s0.doc s0.procs (fun _ => True) r := by
    rcases hr with hr | hr
    · exact h.reports r hr
    · exact h.cache r hr
  obtain ⟨t, tv, h1, _, h2⟩ := this
  exact ⟨t, tv, h1, h2⟩

/-- C63: When no change alters the TOML version, a cached or reported result with the current version of the
document has exactly the diagnostics of the current document, at every point of every schedule. -/
theorem C63_current_partial (E : Env T V D) (s0 : State T V D) (ho : OnlyChanges s0.procs)
    (hcache : s0.cache = none) (hrep : s0.reports = []) (hv : DistinctVersions s0.procs)
    (hnew : ∀ d i t v, s0.doc = some d → Changes s0.procs i t v → d.version ≠ some v)
    (c : V) (hres : ∀ t, E.resolve t = c) (hdoc : ∀ d, s0.doc = some d → d.toml = c)
    (schedule : List (Nat × Bool)) (r : Result D) (d : Doc T V)
    (hr : r ∈ (run E s0 schedule).reports ∨ (run E s0 schedule).cache = some r)
    (hd : (run E s0 schedule).doc = some d) (hver : r.version = d.version) :
    r.diagnostics = E.lint d.text d.toml := by
  have h0 : DInv E s0.doc s0.procs (fun tv => tv = c) s0 := by
    refine ⟨fun d hd => ⟨.inl ⟨d, hd, rfl, rfl⟩, hdoc d hd⟩, (fun r h => by rw [hcache] at h; cases h), fun p hp => ?_,
      (fun r h => by rw [hrep] at h; cases h)⟩
    rcases ho p hp with rfl | ⟨b, rfl⟩ | ⟨t, v, rfl⟩
    · exact trivial
    · exact trivial
    · obtain ⟨i, hi, he⟩ := List.mem_iff_getElem.mp hp
      exact ⟨i, t, rfl, by rw [Changes, List.getElem?_eq_getElem hi, he]⟩
  have h := dinv_run hres schedule h0
  have hR : Right E s0.doc s0.procs (fun tv => tv = c) r := by
    rcases hr with hr | hr
    · exact h.reports r hr
    · exact h.cache r hr
  obtain ⟨t, tv, h1, rfl, h2⟩ := hR
  obtain ⟨h3, h4⟩ := h.doc d hd
  rw [hver] at h1
  have : t = d.text := by
    rcases h1 with ⟨d1, e1, e2, rfl⟩ | ⟨i, w, e1, e2⟩ <;> rcases h3 with ⟨d2, f1, f2, f3⟩ | ⟨j, w', f1, f2⟩
    · rw [e1] at f1; cases f1; exact f3
    · exact absurd (e2.trans f1) (hnew d1 j _ w' e1 f2)
    · exact absurd (f2.trans e1) (hnew d2 i _ w f1 e2)
    · rw [e1] at f1; cases f1
      have := hv i j _ _ w e2 f2
      subst this
      rw [Changes] at e2 f2
      rw [e2] at f2
      simpa using f2
  rw [h2, this, h4]

example : (run env (start [.changeApply (some 6) 2, .diagnose, .diagnose]) (at' [1, 1, 0, 0, 1, 2, 2, 2, 0])).reports
    = [⟨(6, 0), some 2⟩, ⟨(5, 0), some 1⟩] := by decide

/-- C63, in full, is false: diagnostics of a changed text computed with the TOML version of the text before stay
in the cache, and are reported, after the document has got its new TOML version. -/
theorem C63_current_false : ∃ (s0 : State Nat Nat (Nat × Nat)) (schedule : List (Nat × Bool)) (d : Doc Nat Nat)
    (r : Result (Nat × Nat)),
    s0.procs = [.changeApply (some 10) 2, .diagnose, .diagnose] ∧ Finished (run env s0 schedule)
      ∧ (run env s0 schedule).doc = some d ∧ d.toml = env.resolve d.text
      ∧ (run env s0 schedule).cache = some r ∧ r.version = d.version
      ∧ (run env s0 schedule).reports.head? = some r ∧ r.diagnostics ≠ env.lint d.text d.toml :=
  ⟨start [.changeApply (some 10) 2, .diagnose, .diagnose], at' [0, 0, 0, 1, 1, 0, 0, 1, 2, 2],
    ⟨10, some 2, 1⟩, ⟨(10, 0), some 2⟩, rfl, by intro p hp; revert hp; revert p; decide, by decide, by decide,
    by decide, rfl, by decide, by decide⟩

/-- C63, in full, is false for a document that is closed and opened again, whose versions start anew: diagnostics
of the text before stay in the cache. -/
theorem C63_reopened_false : ∃ (s0 : State Nat Nat (Nat × Nat)) (schedule : List (Nat × Bool)) (d : Doc Nat Nat)
    (r : Result (Nat × Nat)),
    s0.procs = [.diagnose, .close, .openResolve 6 1, .diagnose] ∧ Finished (run env s0 schedule)
      ∧ (run env s0 schedule).doc = some d ∧ d.text = 6 ∧ (run env s0 schedule).cache = some r
      ∧ r.version = d.version ∧ (run env s0 schedule).reports.head? = some r
      ∧ r.diagnostics = env.lint 5 0 :=
  ⟨start [.diagnose, .close, .openResolve 6 1, .diagnose], at' [0, 0, 1, 1, 2, 2, 2, 0, 3, 3],
    ⟨6, some 1, 0⟩, ⟨(5, 0), some 1⟩, rfl, by intro p hp; revert hp; revert p; decide, by decide, rfl,
    by decide, rfl, by decide, by decide⟩

/-- C63, in full, is false for a file that is not open: diagnostics of its old content stay in the cache. -/
theorem C63_file_false : ∃ (s0 : State Nat Nat (Nat × Nat)) (schedule : List (Nat × Bool)) (d : Doc Nat Nat)
    (r : Result (Nat × Nat)),
    s0.procs = [.diagnose, .fileResolve 6 false, .diagnose] ∧ Finished (run env s0 schedule)
      ∧ (run env s0 schedule).doc = some d ∧ d.text = 6 ∧ (run env s0 schedule).cache = some r
      ∧ r.version = d.version ∧ (run env s0 schedule).reports.head? = some r
      ∧ r.diagnostics = env.lint 5 0 :=
  ⟨{ doc := some ⟨5, none, 0⟩, cache := none, procs := [.diagnose, .fileResolve 6 false, .diagnose], reports := [] },
    at' [0, 0, 1, 1, 1, 0, 2, 2],
    ⟨6, none, 0⟩, ⟨(5, 0), none⟩, rfl, by intro p hp; revert hp; revert p; decide, by decide, rfl,
    by decide, rfl, by decide, by decide⟩

/-! ### one handler running alone -/

/-- `n` steps of handler `i`, nothing else running -/
def alone (i n : Nat) : List (Nat × Bool) := List.replicate n (i, false)

private theorem alone_step (E : Env T V D) (s : State T V D) (i n : Nat) (p : Proc T V D) (h : s.procs[i]? = some p) :
    ∃ s' : State T V D, run E s (alone i (n + 1)) = run E s' (alone i n)
      ∧ s'.procs[i]? = some (step E false s.doc s.cache p).1 ∧ s'.doc = (step E false s.doc s.cache p).2.1
      ∧ s'.cache = (step E false s.doc s.cache p).2.2.1
      ∧ s'.reports = (step E false s.doc s.cache p).2.2.2 ++ s.reports :=
  ⟨_, rfl, stepAt_some E s i false p h⟩

private theorem alone_done (E : Env T V D) (i n : Nat) : ∀ (s : State T V D), s.procs[i]? = some .done →
    (run E s (alone i n)).doc = s.doc ∧ (run E s (alone i n)).cache = s.cache
      ∧ (run E s (alone i n)).reports = s.reports ∧ (run E s (alone i n)).procs[i]? = some .done := by
  induction n with
  | zero => intro s h; exact ⟨rfl, rfl, rfl, h⟩
  | succ n ih =>
    intro s h
    obtain ⟨s', e, h1, h2, h3, h4⟩ := alone_step E s i n _ h
    obtain ⟨g1, g2, g3, g4⟩ := ih s' h1
    rw [e]
    exact ⟨g1.trans h2, g2.trans h3, g3.trans h4, g4⟩

/-- C63: A request for diagnostics that nothing interrupts reports, in every state, one result, and it has the
version of the document; unless the cache had a result of that version, it is the result of linting the document,
and is stored. -/
theorem C63_request (E : Env T V D) (s : State T V D) (i : Nat) (hi : s.procs[i]? = some .diagnose) (d : Doc T V)
    (hd : s.doc = some d) : ∃ r,
    (run E s (alone i 4)).reports = r :: s.reports ∧ r.version = d.version ∧ (run E s (alone i 4)).doc = some d
      ∧ (run E s (alone i 4)).cache = some r ∧ (run E s (alone i 4)).procs[i]? = some .done
      ∧ (s.cache = some r ∨ r.diagnostics = E.lint d.text d.toml) := by
  -- computing and storing
  have hcomp : ∀ (n : Nat) (s1 : State T V D), s1.procs[i]? = some .diagCompute → s1.doc = some d →
      s1.reports = s.reports →
      (run E s1 (alone i (n + 2))).reports = ⟨E.lint d.text d.toml, d.version⟩ :: s.reports
        ∧ (run E s1 (alone i (n + 2))).doc = some d
        ∧ (run E s1 (alone i (n + 2))).cache = some ⟨E.lint d.text d.toml, d.version⟩
        ∧ (run E s1 (alone i (n + 2))).procs[i]? = some .done := by
    intro n s1 h1 h2 h3
    obtain ⟨s2, e2, a1, a2, a3, a4⟩ := alone_step E s1 i (n + 1) _ h1
    simp only [step, h2, Bool.false_eq_true, if_false] at a1 a2 a3 a4
    obtain ⟨s3, e3, b1, b2, b3, b4⟩ := alone_step E s2 i n _ a1
    simp only [step, a2, currentVersion, Option.bind_some, Bool.not_false, Bool.true_and, decide_true, if_true]
      at b1 b2 b3 b4
    obtain ⟨c1, c2, c3, c4⟩ := alone_done E i n s3 b1
    rw [e2, e3]
    refine ⟨?_, c1.trans b2, c2.trans b3, c4⟩
    rw [c3, b4, a4, h3]; rfl
  obtain ⟨s1, e1, a1, a2, a3, a4⟩ := alone_step E s i 3 _ hi
  cases hc : s.cache with
  | none =>
    simp only [step, hc] at a1 a2 a3 a4
    obtain ⟨g1, g2, g3, g4⟩ := hcomp 1 s1 a1 (a2.trans hd) a4
    rw [e1]
    exact ⟨_, g1, rfl, g2, g3, g4, .inr rfl⟩
  | some r =>
    simp only [step, hc] at a1 a2 a3 a4
    obtain ⟨s2, e2, b1, b2, b3, b4⟩ := alone_step E s1 i 2 _ a1
    by_cases hv : r.version = d.version
    · simp only [step, a2, hd, currentVersion, Option.bind_some, hv, if_true] at b1 b2 b3 b4
      obtain ⟨c1, c2, c3, c4⟩ := alone_done E i 2 s2 b1
      rw [e1, e2]
      refine ⟨r, ?_, hv, c1.trans b2, c2.trans (b3.trans a3), c4, .inl rfl⟩
      rw [c3, b4, a4]; rfl
    · simp only [step, a2, hd, currentVersion, Option.bind_some, hv, if_false] at b1 b2 b3 b4
      obtain ⟨g1, g2, g3, g4⟩ := hcomp 0 s2 b1 b2 (by rw [b4, a4]; rfl)
      rw [e1, e2]
      exact ⟨_, g1, rfl, g2, g3, g4, .inr rfl⟩

/-- a cached result of an older version -/
example : ∃ s : State Nat Nat (Nat × Nat), s.procs[0]? = some .diagnose ∧ s.doc = some ⟨5, some 2, 0⟩
    ∧ s.cache = some ⟨(4, 0), some 1⟩ ∧ (run env s (alone 0 4)).reports = [⟨(5, 0), some 2⟩] :=
  ⟨{ doc := some ⟨5, some 2, 0⟩, cache := some ⟨(4, 0), some 1⟩, procs := [.diagnose], reports := [] },
    rfl, rfl, rfl, by decide⟩

/-- C63: A closed document keeps its text and has no version any more; its diagnostics are kept, without a
version, if it belongs to the workspace, and dropped otherwise. -/
theorem C63_close (E : Env T V D) (s : State T V D) (i : Nat) (hi : s.procs[i]? = some .close) (d : Doc T V)
    (hd : s.doc = some d) :
    (run E s (alone i 2)).doc = some ⟨d.text, none, d.toml⟩
      ∧ (run E s (alone i 2)).cache = (if E.tracked then s.cache.map fun r => ⟨r.diagnostics, none⟩ else none)
      ∧ (run E s (alone i 2)).procs[i]? = some .done := by
  obtain ⟨s1, e1, a1, a2, a3, a4⟩ := alone_step E s i 1 _ hi
  simp only [step] at a1 a2 a3 a4
  obtain ⟨s2, e2, b1, b2, b3, b4⟩ := alone_step E s1 i 0 _ a1
  simp only [step] at b1 b2 b3 b4
  obtain ⟨c1, c2, c3, c4⟩ := alone_done E i 0 s2 b1
  rw [e1, e2]
  refine ⟨?_, ?_, c4⟩
  · rw [c1, b2, a2, hd]; rfl
  · rw [c2, b3, a3]; rfl

example : (run env (start [.close]) (alone 0 2)).doc = some ⟨5, none, 0⟩ := by decide

/-- C63: After the deletion of a file neither its text nor its diagnostics are kept, and a request reports
nothing. -/
theorem C63_delete (E : Env T V D) (s : State T V D) (i j : Nat) (hi : s.procs[i]? = some .delete)
    (hj : s.procs[j]? = some .diagnose) :
    (run E s (alone i 2 ++ alone j 4)).doc = none ∧ (run E s (alone i 2 ++ alone j 4)).cache = none
      ∧ (run E s (alone i 2 ++ alone j 4)).reports = s.reports := by
  have hij : j ≠ i := by rintro rfl; rw [hi] at hj; cases hj
  have hsplit : run E s (alone i 2 ++ alone j 4) = run E (run E s (alone i 2)) (alone j 4) := by
    unfold run; rw [List.foldl_append]
  obtain ⟨a1, a2, a3, a4⟩ := stepAt_some E s i false _ hi
  have ao := stepAt_other E s i j false hij
  simp only [step] at a1 a2 a3 a4
  obtain ⟨b1, b2, b3, b4⟩ := stepAt_some E (stepAt E s i false) i false _ a1
  have bo := stepAt_other E (stepAt E s i false) i j false hij
  simp only [step] at b1 b2 b3 b4
  have e : run E s (alone i 2) = stepAt E (stepAt E s i false) i false := rfl
  rw [hsplit, e]
  generalize stepAt E (stepAt E s i false) i false = s2 at b1 b2 b3 b4 bo
  have hd2 : s2.doc = none := b2.trans a2
  obtain ⟨s3, e3, c1, c2, c3, c4⟩ := alone_step E s2 j 3 _ (bo.trans (ao.trans hj))
  simp only [step, b3] at c1 c2 c3 c4
  obtain ⟨s4, e4, d1, d2, d3, d4⟩ := alone_step E s3 j 2 _ c1
  simp only [step, c2, hd2, Bool.false_eq_true, if_false] at d1 d2 d3 d4
  obtain ⟨g1, g2, g3, _⟩ := alone_done E j 2 s4 d1
  rw [e3, e4]
  refine ⟨g1.trans d2, g2.trans (d3.trans c3), ?_⟩
  rw [g3, d4, c4, b4, a4]; rfl

example : (run env (start [.delete, .diagnose]) (alone 0 2 ++ alone 1 4)).reports = [] := by decide

end Tombi.Lsp
