import Verif.Spec.Lsp
/-! Lemmas for C42, C62 and C63. -/
namespace Tombi.Lsp
open Spec.Lsp
variable {T V D : Type} [DecidableEq V]

theorem snoc_induction {α : Type} {P : List α → Prop} (nil : P []) (snoc : ∀ l x, P l → P (l ++ [x])) :
    ∀ l, P l := by
  intro l
  rw [← List.reverse_reverse l]
  induction l.reverse with
  | nil => exact nil
  | cons x l ih => rw [List.reverse_cons]; exact snoc _ x ih

theorem run_append (E : Env T V D) (s : State T V D) (a b : List (Nat × Bool)) :
    run E s (a ++ b) = run E (run E s a) b := by simp [run]

theorem run_cons (E : Env T V D) (s : State T V D) (x : Nat × Bool) (l : List (Nat × Bool)) :
    run E s (x :: l) = run E (stepAt E s x.1 x.2) l := rfl

/-- the other handlers stay as they are -/
theorem stepAt_other (E : Env T V D) (s : State T V D) (i j : Nat) (b : Bool) (h : j ≠ i) :
    (stepAt E s i b).procs[j]? = s.procs[j]? := by
  unfold stepAt
  split
  · rfl
  · simp [List.getElem?_set_ne (Ne.symm h)]

theorem stepAt_some (E : Env T V D) (s : State T V D) (i : Nat) (b : Bool) (p : Proc T V D)
    (h : s.procs[i]? = some p) :
    (stepAt E s i b).procs[i]? = some (step E b s.doc s.cache p).1
      ∧ (stepAt E s i b).doc = (step E b s.doc s.cache p).2.1
      ∧ (stepAt E s i b).cache = (step E b s.doc s.cache p).2.2.1
      ∧ (stepAt E s i b).reports = (step E b s.doc s.cache p).2.2.2 ++ s.reports := by
  have hi : i < s.procs.length := by
    rcases Nat.lt_or_ge i s.procs.length with h' | h'
    · exact h'
    · rw [List.getElem?_eq_none h'] at h; cases h
  unfold stepAt
  rw [h]
  exact ⟨by simp [hi], rfl, rfl, rfl⟩

theorem stepAt_none (E : Env T V D) (s : State T V D) (i : Nat) (b : Bool)
    (h : s.procs[i]? = none) : stepAt E s i b = s := by
  unfold stepAt; rw [h]

/-- what a handler that only reads the documents may be -/
def Quiet : Proc T V D → Prop
  | .clear _ | .diagnose | .diagCached _ | .diagCompute | .diagStore _ | .done => True
  | _ => False

/-- a handler of the change `v`, to `t`, after its first step -/
def Started (E : Env T V D) (t : T) (v : Int) : Proc T V D → Prop
  | .changeClear t' v' _ _ => t' = some t ∧ v' = v
  | .changeResolve t' v' _ _ => t' = some t ∧ v' = v
  | .changeRefine t' v' tv _ => t' = t ∧ v' = v ∧ tv = E.resolve t
  | p => Quiet p

theorem quiet_afterwards (E : Env T V D) (publish : Bool) : Quiet (afterwards E publish) := by
  unfold afterwards; split <;> exact trivial

theorem started_of_quiet {E : Env T V D} {t : T} {v : Int} {p : Proc T V D} (h : Quiet p) : Started E t v p := by
  cases p <;> first | exact h | exact h.elim

theorem step_quiet {E : Env T V D} {b : Bool} {doc : Option (Doc T V)} {cache : Option (Result D)}
    {p : Proc T V D} (h : Quiet p) :
    Quiet (step E b doc cache p).1 ∧ (step E b doc cache p).2.1 = doc := by
  cases p with
  | clear publish => exact ⟨quiet_afterwards E _, rfl⟩
  | diagnose => cases cache <;> exact ⟨trivial, rfl⟩
  | diagCached r => simp only [step]; split <;> exact ⟨trivial, rfl⟩
  | diagCompute => cases b <;> cases doc <;> exact ⟨trivial, rfl⟩
  | diagStore r => simp only [step]; split <;> exact ⟨trivial, rfl⟩
  | done => exact ⟨trivial, rfl⟩
  | _ => exact h.elim

/-- a started change stays one; it only touches the document when this has its version -/
theorem step_started {E : Env T V D} {b : Bool} {doc : Option (Doc T V)} {cache : Option (Result D)}
    {t : T} {v : Int} {p : Proc T V D} (h : Started E t v p) :
    Started E t v (step E b doc cache p).1
      ∧ ((step E b doc cache p).2.1 = doc
        ∨ ∃ d publish, doc = some d ∧ d.version = some v ∧ (step E b doc cache p).2.1 = some ⟨t, some v, E.resolve t⟩
            ∧ p = .changeRefine t v (E.resolve t) publish) := by
  cases p with
  | changeClear t' v' tv pub => exact ⟨h, .inl rfl⟩
  | changeResolve t' v' tv pub =>
    obtain ⟨rfl, rfl⟩ := h
    simp only [step]
    split
    · exact ⟨⟨rfl, rfl, rfl⟩, .inl rfl⟩
    · exact ⟨started_of_quiet (quiet_afterwards E _), .inl rfl⟩
  | changeRefine t' v' tv pub =>
    obtain ⟨rfl, rfl, rfl⟩ := h
    cases doc with
    | none => exact ⟨trivial, .inl rfl⟩
    | some d =>
      simp only [step]
      split
      · exact ⟨trivial, .inl rfl⟩
      · next hv =>
        have hv : d.version = some v' := Decidable.not_not.mp hv
        exact ⟨trivial, .inr ⟨d, pub, rfl, hv, by rw [hv], rfl⟩⟩
  | clear _ => exact ⟨started_of_quiet (step_quiet (p := .clear _) trivial).1, .inl rfl⟩
  | diagnose =>
    have := step_quiet (E := E) (b := b) (doc := doc) (cache := cache) (p := Proc.diagnose) trivial
    exact ⟨started_of_quiet this.1, .inl this.2⟩
  | diagCached r =>
    have := step_quiet (E := E) (b := b) (doc := doc) (cache := cache) (p := Proc.diagCached r) trivial
    exact ⟨started_of_quiet this.1, .inl this.2⟩
  | diagCompute =>
    have := step_quiet (E := E) (b := b) (doc := doc) (cache := cache) (p := Proc.diagCompute) trivial
    exact ⟨started_of_quiet this.1, .inl this.2⟩
  | diagStore r =>
    have := step_quiet (E := E) (b := b) (doc := doc) (cache := cache) (p := Proc.diagStore r) trivial
    exact ⟨started_of_quiet this.1, .inl this.2⟩
  | done => exact ⟨trivial, .inl rfl⟩
  | _ => exact h.elim

/-- the state of handler `j` that was `p0` at the start; `ran` says whether it has made a step -/
def From (E : Env T V D) (p0 p : Proc T V D) (ran : Prop) : Prop :=
  match p0 with
  | .changeApply (some t) v => (¬ ran ∧ p = p0) ∨ (ran ∧ Started E t v p)
  | _ => Quiet p

/-- what holds after every schedule -/
structure Inv (E : Env T V D) (procs0 : List (Proc T V D)) (sched : List (Nat × Bool)) (s : State T V D) :
    Prop where
  doc : s.doc.isSome
  length : s.procs.length = procs0.length
  procs : ∀ (j : Nat) p0, procs0[j]? = some p0 → ∃ p, s.procs[j]? = some p ∧ From E p0 p (j ∈ sched.map (·.1))

theorem inv_run (E : Env T V D) (s0 : State T V D) (hd : s0.doc.isSome) (ho : OnlyChanges s0.procs)
    (sched : List (Nat × Bool)) : Inv E s0.procs sched (run E s0 sched) := by
  induction sched using snoc_induction with
  | nil =>
    refine ⟨hd, rfl, fun j p0 h => ⟨p0, h, ?_⟩⟩
    rcases ho p0 (List.mem_of_getElem? h) with rfl | ⟨c, rfl⟩ | ⟨t, v, rfl⟩
    · exact trivial
    · exact trivial
    · exact .inl ⟨by simp, rfl⟩
  | snoc sched x ih =>
    obtain ⟨i, b⟩ := x
    rw [run_append, run_cons]
    show Inv E s0.procs _ (stepAt E (run E s0 sched) i b)
    generalize run E s0 sched = s at ih ⊢
    cases hp : s.procs[i]? with
    | none =>
      rw [stepAt_none _ _ _ _ hp]
      refine ⟨ih.doc, ih.length, fun j p0 h => ?_⟩
      obtain ⟨p, h1, h2⟩ := ih.procs j p0 h
      have hne : j ≠ i := by rintro rfl; rw [hp] at h1; cases h1
      exact ⟨p, h1, by simpa [List.map_append, hne] using h2⟩
    | some p =>
      obtain ⟨e1, e2, _, _⟩ := stepAt_some E s i b p hp
      have hlen : i < s0.procs.length := by
        rw [← ih.length]
        rcases Nat.lt_or_ge i s.procs.length with h' | h'
        · exact h'
        · rw [List.getElem?_eq_none h'] at hp; cases hp
      have hi0 : s0.procs[i]? = some s0.procs[i] := List.getElem?_eq_getElem hlen
      obtain ⟨p', hp', hf⟩ := ih.procs i _ hi0
      rw [hp] at hp'; cases hp'
      -- the step of `i`
      have key : From E s0.procs[i] (step E b s.doc s.cache p).1 True ∧ ((step E b s.doc s.cache p).2.1).isSome := by
        rcases ho _ (List.mem_of_getElem? hi0) with he | ⟨c, he⟩ | ⟨t, v, he⟩
        · rw [he] at hf ⊢
          have := step_quiet (E := E) (b := b) (doc := s.doc) (cache := s.cache) (p := p) hf
          exact ⟨this.1, by rw [this.2]; exact ih.doc⟩
        · rw [he] at hf ⊢
          have := step_quiet (E := E) (b := b) (doc := s.doc) (cache := s.cache) (p := p) hf
          exact ⟨this.1, by rw [this.2]; exact ih.doc⟩
        · rw [he] at hf ⊢
          rcases hf with ⟨_, rfl⟩ | ⟨_, hst⟩
          · obtain ⟨d, hd⟩ := Option.isSome_iff_exists.mp ih.doc
            rw [hd]
            exact ⟨.inr ⟨trivial, rfl, rfl⟩, rfl⟩
          · have := step_started (E := E) (b := b) (doc := s.doc) (cache := s.cache) hst
            refine ⟨.inr ⟨trivial, this.1⟩, ?_⟩
            rcases this.2 with h | ⟨d, _, _, _, h, _⟩
            · rw [h]; exact ih.doc
            · rw [h]; rfl
      refine ⟨by rw [e2]; exact key.2, ?_, fun j p0 h => ?_⟩
      · unfold stepAt; rw [hp]; simpa using ih.length
      · by_cases hj : j = i
        · subst hj
          rw [hi0] at h; cases h
          refine ⟨_, e1, ?_⟩
          have : (j ∈ (sched ++ [(j, b)]).map (·.1)) = True := by simp
          rw [this]; exact key.1
        · obtain ⟨q, h1, h2⟩ := ih.procs j p0 h
          refine ⟨q, by rw [stepAt_other _ _ _ _ _ hj]; exact h1, ?_⟩
          simpa [List.map_append, hj] using h2

/-- what holds from the first step of the last change `i` on -/
structure After (E : Env T V D) (i : Nat) (t : T) (v : Int) (allowed : Nat → Prop) (s : State T V D) : Prop where
  others : ∀ (j : Nat) p, j ≠ i → allowed j → s.procs[j]? = some p →
    Quiet p ∨ ∃ t' v', v' ≠ v ∧ Started E t' v' p
  self : ∃ p tv, s.procs[i]? = some p ∧ s.doc = some ⟨t, some v, tv⟩ ∧ Started E t v p
    ∧ (tv = E.resolve t ∨ (∃ pub, p = .changeClear (some t) v tv pub) ∨ (∃ pub, p = .changeResolve (some t) v tv pub)
        ∨ ∃ pub, p = .changeRefine t v (E.resolve t) pub)

theorem after_step (E : Env T V D) {i : Nat} {t : T} {v : Int} {allowed : Nat → Prop} {s : State T V D}
    (h : After E i t v allowed s) (k : Nat) (b : Bool) (hk : k = i ∨ allowed k) :
    After E i t v allowed (stepAt E s k b) := by
  cases hp : s.procs[k]? with
  | none => rw [stepAt_none _ _ _ _ hp]; exact h
  | some p =>
    obtain ⟨e1, e2, _, _⟩ := stepAt_some E s k b p hp
    by_cases hki : k = i
    · subst hki
      obtain ⟨p', tv, h1, h2, h3, h4⟩ := h.self
      rw [hp] at h1; cases h1
      refine ⟨fun j q hj ha hq => ?_, ?_⟩
      · rw [stepAt_other _ _ _ _ _ hj] at hq
        exact h.others j q hj ha hq
      · have hst := step_started (E := E) (b := b) (doc := s.doc) (cache := s.cache) h3
        rw [h2] at e1 e2 hst
        rcases hst.2 with hd | ⟨d, pub, hd1, hd2, hd3, hd4⟩
        · refine ⟨_, tv, e1, by rw [e2, hd], hst.1, ?_⟩
          rcases h4 with h4 | ⟨pub, rfl⟩ | ⟨pub, rfl⟩ | ⟨pub, rfl⟩
          · exact .inl h4
          · exact .inr (.inr (.inl ⟨pub, rfl⟩))
          · simp only [step]
            split
            · exact .inr (.inr (.inr ⟨pub, rfl⟩))
            · next hr => exact .inl (Decidable.not_not.mp hr).symm
          · simp only [step, ne_eq, not_true_eq_false, if_false, Option.some.injEq, Doc.mk.injEq, true_and] at hd
            exact .inl hd.symm
        · exact ⟨_, E.resolve t, e1, by rw [e2, hd3], hst.1, .inl rfl⟩
    · have hal : allowed k := hk.resolve_left hki
      have hsafe := h.others k p hki hal hp
      have hstep : (step E b s.doc s.cache p).2.1 = s.doc ∧ (Quiet (step E b s.doc s.cache p).1
          ∨ ∃ t' v', v' ≠ v ∧ Started E t' v' (step E b s.doc s.cache p).1) := by
        rcases hsafe with hq | ⟨t', v', hne, hst⟩
        · have := step_quiet (E := E) (b := b) (doc := s.doc) (cache := s.cache) hq
          exact ⟨this.2, .inl this.1⟩
        · have := step_started (E := E) (b := b) (doc := s.doc) (cache := s.cache) hst
          refine ⟨?_, .inr ⟨t', v', hne, this.1⟩⟩
          rcases this.2 with h' | ⟨d, pub, hd1, hd2, _, _⟩
          · exact h'
          · obtain ⟨_, tv, _, h2, _⟩ := h.self
            rw [h2] at hd1; cases hd1
            simp only [Option.some.injEq] at hd2
            exact absurd hd2.symm hne
      refine ⟨fun j q hj ha hq => ?_, ?_⟩
      · by_cases hjk : j = k
        · subst hjk
          rw [e1] at hq; cases hq
          exact hstep.2
        · rw [stepAt_other _ _ _ _ _ hjk] at hq
          exact h.others j q hj ha hq
      · obtain ⟨q, tv, h1, h2, h3⟩ := h.self
        exact ⟨q, tv, by rw [stepAt_other _ _ _ _ _ (Ne.symm hki)]; exact h1, by rw [e2, hstep.1]; exact h2, h3⟩

theorem after_run (E : Env T V D) {i : Nat} {t : T} {v : Int} {allowed : Nat → Prop} (post : List (Nat × Bool))
    {s : State T V D} (h : After E i t v allowed s) (hp : ∀ x ∈ post, x.1 = i ∨ allowed x.1) :
    After E i t v allowed (run E s post) := by
  induction post generalizing s with
  | nil => exact h
  | cons x post ih =>
    rw [run_cons]
    exact ih (after_step E h x.1 x.2 (hp x (by simp))) fun y hy => hp y (by simp [hy])

theorem last_change (E : Env T V D) (s0 : State T V D) (hd : s0.doc.isSome) (ho : OnlyChanges s0.procs)
    (hv : DistinctVersions s0.procs) (sched : List (Nat × Bool)) (i : Nat) (t : T) (v : Int)
    (hc : Changes s0.procs i t v) (hl : StartedLast s0.procs sched i) :
    ∃ allowed, After E i t v allowed (run E s0 sched) := by
  obtain ⟨pre, b, post, rfl, hnot, hpost⟩ := hl
  have hi := inv_run E s0 hd ho pre
  rw [run_append, run_cons]
  show ∃ allowed, After E i t v allowed (run E (stepAt E (run E s0 pre) i b) post)
  generalize run E s0 pre = s at hi ⊢
  refine ⟨fun j => ∀ t' v', Changes s0.procs j t' v' → j = i ∨ j ∈ pre.map (·.1), ?_⟩
  apply after_run
  · -- the first step of `i`
    obtain ⟨p, h1, h2⟩ := hi.procs i _ hc
    have hp : p = .changeApply (some t) v := by
      rcases h2 with ⟨_, h⟩ | ⟨h, _⟩
      · exact h
      · exact absurd h hnot
    subst hp
    obtain ⟨d, hd⟩ := Option.isSome_iff_exists.mp hi.doc
    obtain ⟨e1, e2, _, _⟩ := stepAt_some E s i b _ h1
    rw [hd] at e1 e2
    refine ⟨fun j q hj ha hq => ?_, _, d.toml, e1, e2, ⟨rfl, rfl⟩, .inr (.inl ⟨_, rfl⟩)⟩
    rw [stepAt_other _ _ _ _ _ hj] at hq
    have hlen : j < s0.procs.length := by
      rw [← hi.length]
      rcases Nat.lt_or_ge j s.procs.length with h' | h'
      · exact h'
      · rw [List.getElem?_eq_none h'] at hq; cases hq
    have hj0 : s0.procs[j]? = some s0.procs[j] := List.getElem?_eq_getElem hlen
    obtain ⟨q', hq', hf⟩ := hi.procs j _ hj0
    rw [hq] at hq'; cases hq'
    rcases ho _ (List.mem_of_getElem? hj0) with he | ⟨c, he⟩ | ⟨t', v', he⟩
    · rw [he] at hf; exact .inl hf
    · rw [he] at hf; exact .inl hf
    · have hcj : Changes s0.procs j t' v' := by rw [Changes, hj0, he]
      rw [he] at hf
      rcases hf with ⟨hn, _⟩ | ⟨_, hst⟩
      · rcases ha t' v' hcj with h | h
        · exact absurd h hj
        · exact absurd h hn
      · refine .inr ⟨t', v', ?_, hst⟩
        rintro rfl
        exact hj (hv j i t' t v' hcj hc)
  · intro x hx
    exact .inr fun t' v' hcx => hpost x.1 t' v' hcx (List.mem_map_of_mem hx)

/-- a handler that has finished has made a step -/
theorem finished_ran (E : Env T V D) (s0 : State T V D) (hd : s0.doc.isSome) (ho : OnlyChanges s0.procs)
    (sched : List (Nat × Bool)) (hf : Finished (run E s0 sched)) (i : Nat) (t : T) (v : Int)
    (hc : Changes s0.procs i t v) : i ∈ sched.map (·.1) := by
  obtain ⟨p, h1, h2⟩ := (inv_run E s0 hd ho sched).procs i _ hc
  have := hf p (List.mem_of_getElem? h1)
  subst this
  rcases h2 with ⟨_, h⟩ | ⟨h, _⟩
  · cases h
  · exact h

/-! ### diagnostics -/

/-- the result was computed for the text of its version -/
def Right (E : Env T V D) (doc0 : Option (Doc T V)) (procs0 : List (Proc T V D)) (ok : V → Prop) (r : Result D) : Prop :=
  ∃ t tv, TextOf doc0 procs0 r.version t ∧ ok tv ∧ r.diagnostics = E.lint t tv

def RightProc (E : Env T V D) (doc0 : Option (Doc T V)) (procs0 : List (Proc T V D)) (ok : V → Prop) :
    Proc T V D → Prop
  | .diagCached r => Right E doc0 procs0 ok r
  | .diagStore r => Right E doc0 procs0 ok r
  | .changeApply t v => ∃ i t', t = some t' ∧ Changes procs0 i t' v
  | .changeClear t v _ _ => ∃ i t', t = some t' ∧ Changes procs0 i t' v
  | .changeResolve t v _ _ => ∃ i t', t = some t' ∧ Changes procs0 i t' v
  | .changeRefine t v tv _ => (∃ i, Changes procs0 i t v) ∧ ok tv
  | .clear _ | .diagnose | .diagCompute | .done => True
  | _ => False

structure DInv (E : Env T V D) (doc0 : Option (Doc T V)) (procs0 : List (Proc T V D)) (ok : V → Prop)
    (s : State T V D) : Prop where
  doc : ∀ d, s.doc = some d → TextOf doc0 procs0 d.version d.text ∧ ok d.toml
  cache : ∀ r, s.cache = some r → Right E doc0 procs0 ok r
  procs : ∀ p ∈ s.procs, RightProc E doc0 procs0 ok p
  reports : ∀ r ∈ s.reports, Right E doc0 procs0 ok r

theorem rightProc_afterwards {E : Env T V D} {doc0 : Option (Doc T V)} {procs0 : List (Proc T V D)} {ok : V → Prop}
    (publish : Bool) : RightProc E doc0 procs0 ok (afterwards E publish) := by
  unfold afterwards; split <;> exact trivial

theorem step_right {E : Env T V D} {doc0 : Option (Doc T V)} {procs0 : List (Proc T V D)} {ok : V → Prop}
    (hok : ∀ t, ok (E.resolve t)) {b : Bool} {doc : Option (Doc T V)} {cache : Option (Result D)} {p : Proc T V D}
    (h1 : ∀ d, doc = some d → TextOf doc0 procs0 d.version d.text ∧ ok d.toml)
    (h2 : ∀ r, cache = some r → Right E doc0 procs0 ok r) (h3 : RightProc E doc0 procs0 ok p) :
    (∀ d, (step E b doc cache p).2.1 = some d → TextOf doc0 procs0 d.version d.text ∧ ok d.toml)
      ∧ (∀ r, (step E b doc cache p).2.2.1 = some r → Right E doc0 procs0 ok r)
      ∧ RightProc E doc0 procs0 ok (step E b doc cache p).1
      ∧ ∀ r ∈ (step E b doc cache p).2.2.2, Right E doc0 procs0 ok r := by
  cases p with
  | changeApply t v =>
    obtain ⟨i, t', rfl, hc⟩ := h3
    cases doc with
    | none => exact ⟨h1, h2, trivial, by simp [step]⟩
    | some d =>
      refine ⟨?_, h2, ⟨i, t', rfl, hc⟩, by simp [step]⟩
      rintro d' hd'
      cases hd'
      exact ⟨.inr ⟨i, v, rfl, hc⟩, (h1 d rfl).2⟩
  | changeClear t v tv pub => exact ⟨h1, (fun r h => by cases h), h3, by simp [step]⟩
  | changeResolve t v tv pub =>
    obtain ⟨i, t', rfl, hc⟩ := h3
    simp only [step]
    split
    · exact ⟨h1, h2, ⟨⟨i, hc⟩, hok t'⟩, by simp⟩
    · exact ⟨h1, h2, rightProc_afterwards pub, by simp⟩
  | changeRefine t v tv pub =>
    obtain ⟨⟨i, hc⟩, hv⟩ := h3
    cases doc with
    | none => exact ⟨h1, h2, trivial, by simp [step]⟩
    | some d =>
      simp only [step]
      split
      · exact ⟨h1, h2, trivial, by simp⟩
      · next hver =>
        refine ⟨?_, h2, trivial, by simp⟩
        rintro d' hd'
        cases hd'
        have hver : d.version = some v := Decidable.not_not.mp hver
        exact ⟨.inr ⟨i, v, hver, hc⟩, hv⟩
  | clear pub => exact ⟨h1, (fun r h => by cases h), rightProc_afterwards pub, by simp [step]⟩
  | diagnose =>
    cases cache with
    | none => exact ⟨h1, h2, trivial, by simp [step]⟩
    | some r => exact ⟨h1, h2, h2 r rfl, by simp [step]⟩
  | diagCached r =>
    simp only [step]
    split
    · exact ⟨h1, h2, trivial, fun r' hr => by cases List.mem_singleton.mp hr; exact h3⟩
    · exact ⟨h1, h2, trivial, by simp⟩
  | diagCompute =>
    simp only [step]
    split
    · exact ⟨h1, h2, trivial, by simp⟩
    · cases doc with
      | none => exact ⟨h1, h2, trivial, by simp⟩
      | some d => exact ⟨h1, h2, ⟨d.text, d.toml, (h1 d rfl).1, (h1 d rfl).2, rfl⟩, by simp⟩
  | diagStore r =>
    simp only [step]
    split
    · exact ⟨h1, (fun r' h => by cases h; exact h3), trivial, fun r' hr => by cases List.mem_singleton.mp hr; exact h3⟩
    · exact ⟨h1, h2, trivial, fun r' hr => by cases List.mem_singleton.mp hr; exact h3⟩
  | done => exact ⟨h1, h2, trivial, by simp [step]⟩
  | _ => exact h3.elim

theorem dinv_stepAt {E : Env T V D} {doc0 : Option (Doc T V)} {procs0 : List (Proc T V D)} {ok : V → Prop}
    (hok : ∀ t, ok (E.resolve t)) {s : State T V D} (h : DInv E doc0 procs0 ok s) (i : Nat) (b : Bool) :
    DInv E doc0 procs0 ok (stepAt E s i b) := by
  unfold stepAt
  split
  · exact h
  · next p hp =>
    obtain ⟨a, b, c, d⟩ := step_right (b := b) hok h.doc h.cache (h.procs p (List.mem_of_getElem? hp))
    refine ⟨a, b, fun q hq => ?_, fun r hr => ?_⟩
    · rcases List.mem_or_eq_of_mem_set hq with hq | rfl
      · exact h.procs q hq
      · exact c
    · rcases List.mem_append.mp hr with hr | hr
      · exact d r hr
      · exact h.reports r hr

theorem dinv_run {E : Env T V D} {doc0 : Option (Doc T V)} {procs0 : List (Proc T V D)} {ok : V → Prop}
    (hok : ∀ t, ok (E.resolve t)) (sched : List (Nat × Bool)) {s : State T V D} (h : DInv E doc0 procs0 ok s) :
    DInv E doc0 procs0 ok (run E s sched) := by
  induction sched generalizing s with
  | nil => exact h
  | cons x sched ih => rw [run_cons]; exact ih (dinv_stepAt hok h _ _)

end Tombi.Lsp
