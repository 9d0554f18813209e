import Verif.Proofs.ConfigFile
/-! C88: which configuration applies. -/
namespace Tombi.ConfigFile

variable {T C : Type}

/-- **C88.** The configuration of the project that is loaded for a directory is the nearest one. -/
theorem C88_nearest (env : Env T C) (disk : Disk T) (dir p : Path) (c : C) :
    load env disk (some dir) = .found c (some p) .project ↔ Nearest env disk dir p c := by
  rcases load_project (env := env) (disk := disk) dir with h | ⟨q, d, h1, h2⟩
  · constructor
    · intro hl
      rcases load_common (env := env) (disk := disk) (dir := some dir) (fun d hd => by cases hd; exact h) with
        ⟨_, h2⟩ | ⟨q, l, ⟨pre, post, e, _⟩, ⟨_, _, h2⟩ | ⟨_, h2⟩⟩
      · rw [h2] at hl; cases hl
      · rw [h2] at hl
        cases hl
        rcases common_level (env := env) (p := p) (l := .project) (by rw [e]; simp) with h | h <;> cases h
      · rw [h2] at hl; cases hl
    · exact fun hn => absurd hn (not_nearest h)
  · constructor
    · intro hl
      rw [h1] at hl
      cases hl
      exact h2
    · intro hn
      obtain ⟨rfl, rfl⟩ := nearest_unique hn h2
      exact h1

/-- **C88 (partial).** Without one, the first file of the user or the system that is there is loaded if it holds a configuration, and the
default applies if no such file is there. Missing: a file of the user that holds no configuration, where loading panics
(`C88_user_false`). -/
theorem C88_common_partial (env : Env T C) (disk : Disk T) (dir : Option Path) (h : ∀ d, dir = some d → NoProject env disk d) :
    ((∀ q ∈ commonPlaces env, disk q.1 = none) → load env disk dir = .found env.default none .default) ∧
    (∀ p l c, FirstThere disk (commonPlaces env) p l → Holds env disk p c → load env disk dir = .found c (some p) l) ∧
    (load env disk dir = .panic ↔ ∃ p l, FirstThere disk (commonPlaces env) p l ∧ ∀ c, ¬ Holds env disk p c) := by
  have uniq : ∀ {p q l l'}, FirstThere disk (commonPlaces env) p l → FirstThere disk (commonPlaces env) q l' → p = q ∧ l = l' := by
    rintro p q l l' ⟨a, b, h1, h2, h3⟩ ⟨a', b', h1', h2', h3'⟩
    have hl : a.length = a'.length := by
      have e := h1.symm.trans h1'
      rcases Nat.lt_trichotomy a.length a'.length with hl | hl | hl
      · have : a'[a.length]? = some (p, l) := by
          have := congrArg (·[a.length]?) e
          simp only [List.getElem?_append_right (Nat.le_refl _), Nat.sub_self, List.getElem?_cons_zero,
            List.getElem?_append_left hl] at this
          exact this.symm
        exact absurd (h3' _ (List.mem_of_getElem? this)) h2
      · exact hl
      · have : a[a'.length]? = some (q, l') := by
          have := congrArg (·[a'.length]?) e
          simp only [List.getElem?_append_right (Nat.le_refl _), Nat.sub_self, List.getElem?_cons_zero,
            List.getElem?_append_left hl] at this
          exact this
        exact absurd (h3 _ (List.mem_of_getElem? this)) h2'
    have := (List.append_inj (h1.symm.trans h1') hl).2
    cases this
    exact ⟨rfl, rfl⟩
  rcases load_common h with ⟨h1, h2⟩ | ⟨p, l, hf, h2⟩
  · have no : ∀ {p l}, ¬ FirstThere disk (commonPlaces env) p l := by
      rintro p l ⟨a, b, e, hp, _⟩
      exact hp (h1 (p, l) (by rw [e]; simp))
    refine ⟨fun _ => h2, fun p l c hf _ => absurd hf no, ?_⟩
    constructor
    · intro hp; rw [h2] at hp; cases hp
    · rintro ⟨p, l, hf, _⟩; exact absurd hf no
  · have hthere : ¬ ∀ q ∈ commonPlaces env, disk q.1 = none := by
      obtain ⟨a, b, e, hp, _⟩ := hf
      exact fun hn => hp (hn (p, l) (by rw [e]; simp))
    refine ⟨fun hn => absurd hn hthere, ?_, ?_⟩
    · intro q l' c hq hc
      obtain ⟨rfl, rfl⟩ := uniq hf hq
      rcases h2 with ⟨c', hc', h2⟩ | ⟨hn, _⟩
      · rw [holds_unique hc hc']; exact h2
      · exact absurd hc (hn c)
    · rcases h2 with ⟨c', hc', h2⟩ | ⟨hn, h2⟩
      · constructor
        · intro hp; rw [h2] at hp; cases hp
        · rintro ⟨q, l', hq, hn⟩
          obtain ⟨rfl, rfl⟩ := uniq hf hq
          exact absurd hc' (hn c')
      · exact ⟨fun _ => ⟨p, l, hf, hn⟩, fun _ => h2⟩

/-! ### The language server -/

theorem parent_eq (f : Path) : parent f = directoryOf f := by
  rw [parent, directoryOf]
  cases h : f.reverse with
  | nil => rw [List.reverse_eq_nil_iff.1 h]; rfl
  | cons a l =>
    have : f = l.reverse ++ [a] := by rw [← List.reverse_reverse f, h, List.reverse_cons]
    subst this
    simp

/-- The command line, run in the directory of the document, uses the configuration `c` in the file `p`. -/
def UsedBy (env : Env T C) (disk : Disk T) (file p : Path) (c : C) : Prop := ∃ l, load env disk (parent file) = .found c (some p) l

theorem run_append (env : Env T C) (s : State T C) (a b : List (Event T C)) : s.run env (a ++ b) = (s.run env a).run env b :=
  List.foldl_append

theorem tryFromPath_congr {env : Env T C} {d d' : Disk T} {p : Path} (h : d p = d' p) : tryFromPath env d p = tryFromPath env d' p := by
  simp only [tryFromPath, h]

theorem lookup_of_ne {p q : Path} {v : C} {l : List (Path × C)} (h : p ≠ q) : ((q, v) :: l).lookup p = l.lookup p := by
  rw [List.lookup_cons]
  have : (p == q) = false := by simpa using h
  rw [this]

theorem lookup_self {p : Path} {v : C} {l : List (Path × C)} : ((p, v) :: l).lookup p = some v := by
  rw [List.lookup_cons, beq_self_eq_true]

theorem default_maps (env : Env T C) (m : Manager C) : (m.getDefault env).1.sources = m.sources ∧ (m.getDefault env).1.stores = m.stores := by
  rw [Manager.getDefault]
  cases m.default <;> exact ⟨rfl, rfl⟩

theorem stored_maps (env : Env T C) (m : Manager C) (p : Path) :
    (m.stored env p).1.sources = m.sources ∧ (m.stored env p).1.stores = m.stores := by
  rw [Manager.stored]
  cases m.stores.lookup p with
  | some c => exact ⟨rfl, rfl⟩
  | none => exact default_maps env m

/-- What a request does to the maps. -/
theorem request_maps (env : Env T C) (disk : Disk T) (m : Manager C) (g : Path) :
    ((m.configFor env disk g).1.sources = m.sources ∧ (m.configFor env disk g).1.stores = m.stores) ∨
    ∃ c p l, load env disk (parent g) = .found c (some p) l ∧ (m.configFor env disk g).1.sources = (g, p) :: m.sources ∧
      (m.configFor env disk g).1.stores = (match m.stores.lookup p with
        | some _ => m.stores
        | none => (p, c) :: m.stores) := by
  rw [Manager.configFor]
  cases hs : m.sources.lookup g with
  | some p => exact .inl (stored_maps env m p)
  | none =>
    cases hl : load env disk (parent g) with
    | panic => exact .inl ⟨rfl, rfl⟩
    | found c p l =>
      cases p with
      | none => exact .inl (default_maps env m)
      | some p =>
        refine .inr ⟨c, p, l, rfl, ?_⟩
        exact stored_maps env _ p

/-- A document is cached with the file `p` only, and that file is kept. -/
def Cached (f p : Path) (m : Manager C) : Prop :=
  (m.sources.lookup f = none ∨ m.sources.lookup f = some p) ∧ (m.sources.lookup f = some p → m.stores.lookup p ≠ none)

theorem cached_step {env : Env T C} {s : State T C} {f p : Path} (h : Cached f p s.manager) (hu : ∃ c, UsedBy env s.disk f p c) (e : Event T C) :
    Cached f p (s.step env e).manager := by
  cases e with
  | files d => exact h
  | settings c => exact h
  | update q r =>
    show Cached f p (s.manager.update env s.disk q r)
    have keep : ∀ c, Cached f p { s.manager with stores := (q, c) :: s.manager.stores } := by
      intro c
      refine ⟨h.1, fun hs => ?_⟩
      show ((q, c) :: s.manager.stores).lookup p ≠ none
      by_cases hq : p = q
      · rw [hq, lookup_self]; simp
      · rw [lookup_of_ne hq]; exact h.2 hs
    rw [Manager.update]
    split
    · next c hc =>
      split
      · exact keep c
      · split
        · exact h
        · exact keep c
    · exact h
  | request g =>
    show Cached f p (s.manager.configFor env s.disk g).1
    rcases request_maps env s.disk s.manager g with ⟨h1, h2⟩ | ⟨c, q, l, hl, h1, h2⟩
    · rw [Cached, h1, h2]; exact h
    · have hst : s.manager.stores.lookup p ≠ none ∨ q = p → (s.manager.configFor env s.disk g).1.stores.lookup p ≠ none := by
        intro hor
        rw [h2]
        cases hq : s.manager.stores.lookup q with
        | some d =>
          rcases hor with hor | rfl
          · exact hor
          · show s.manager.stores.lookup q ≠ none
            rw [hq]; simp
        | none =>
          show ((q, c) :: s.manager.stores).lookup p ≠ none
          by_cases hpq : p = q
          · rw [hpq, lookup_self]; simp
          · rw [lookup_of_ne hpq]
            exact hor.resolve_right (fun e => hpq e.symm)
      by_cases hg : f = g
      · subst hg
        obtain ⟨c', l', hu⟩ := hu
        rw [hu] at hl
        cases hl
        refine ⟨.inr (by rw [h1, lookup_self]), fun _ => hst (.inr rfl)⟩
      · have : (s.manager.configFor env s.disk g).1.sources.lookup f = s.manager.sources.lookup f := by rw [h1, lookup_of_ne hg]
        rw [Cached, this]
        exact ⟨h.1, fun hs => hst (.inl (h.2 hs))⟩

theorem cached_run {env : Env T C} {f p : Path} : (es : List (Event T C)) → (s : State T C) → Cached f p s.manager →
    (∀ pre post, es = pre ++ post → ∃ c, UsedBy env (s.run env pre).disk f p c) → Cached f p (s.run env es).manager
  | [], _, h, _ => h
  | e :: es, s, h, hu => by
    have := cached_run es (s.step env e) (cached_step h (hu [] _ rfl) e) (fun pre post he => hu (e :: pre) post (by rw [he]; rfl))
    exact this

/-- The configuration kept for the file `p`, if any, is `c`. -/
def StoredAs (p : Path) (c : C) (m : Manager C) : Prop := m.stores.lookup p = none ∨ m.stores.lookup p = some c

theorem keeps_step {env : Env T C} {s : State T C} {p : Path} {c : C} (h : StoredAs p c s.manager) (hd : tryFromPath env s.disk p = .ok (some c))
    (e : Event T C) : StoredAs p c (s.step env e).manager := by
  cases e with
  | files d => exact h
  | settings c => exact h
  | update q r =>
    show StoredAs p c (s.manager.update env s.disk q r)
    have keep : ∀ c', tryFromPath env s.disk q = .ok (some c') → StoredAs p c { s.manager with stores := (q, c') :: s.manager.stores } := by
      intro c' hc'
      show ((q, c') :: s.manager.stores).lookup p = none ∨ ((q, c') :: s.manager.stores).lookup p = some c
      by_cases hq : p = q
      · subst hq
        rw [hd] at hc'
        cases hc'
        rw [lookup_self]
        exact .inr rfl
      · rw [lookup_of_ne hq]; exact h
    rw [Manager.update]
    split
    · next c' hc' =>
      split
      · exact keep c' hc'
      · split
        · exact h
        · exact keep c' hc'
    · exact h
  | request g =>
    show StoredAs p c (s.manager.configFor env s.disk g).1
    rcases request_maps env s.disk s.manager g with ⟨_, h2⟩ | ⟨c', q, l, hl, _, h2⟩
    · rw [StoredAs, h2]; exact h
    · rw [StoredAs, h2]
      cases hq : s.manager.stores.lookup q with
      | some d => exact h
      | none =>
        show ((q, c') :: s.manager.stores).lookup p = none ∨ ((q, c') :: s.manager.stores).lookup p = some c
        by_cases hpq : p = q
        · subst hpq
          have := (load_holds hl).1
          rw [hd] at this
          cases this
          rw [lookup_self]
          exact .inr rfl
        · rw [lookup_of_ne hpq]; exact h

theorem keeps_run {env : Env T C} {p : Path} {c : C} : (es : List (Event T C)) → (s : State T C) → StoredAs p c s.manager →
    (∀ mid rest, es = mid ++ rest → tryFromPath env (s.run env mid).disk p = .ok (some c)) → StoredAs p c (s.run env es).manager
  | [], _, h, _ => h
  | e :: es, s, h, hu => by
    have := keeps_run es (s.step env e) (keeps_step h (hu [] _ rfl) e) (fun pre post he => hu (e :: pre) post (by rw [he]; rfl))
    exact this

/-- The file `p` with the configuration `c` is what the command line uses in the directory of the document. -/
def Used (env : Env T C) (disk : Disk T) (file p : Path) (c : C) : Prop := ∃ l, load env disk (directoryOf file) = .found c (some p) l

theorem used_eq (env : Env T C) (disk : Disk T) (file p : Path) (c : C) : Used env disk file p c = UsedBy env disk file p c := by
  rw [Used, UsedBy, parent_eq]

/-- **C88 (partial).** The editor uses the configuration that the command line would use for the document, after any requests, changes of files
and settings, while the same file has the configuration of the document all the time and the editor has been told of the last change of that
file. Missing: another file becomes the nearest one after the first request for the document (`C88_editor_false`). -/
theorem C88_editor_partial (env : Env T C) (disk : Disk T) (cwd : Option Path) (m : Manager C) (hm : Manager.new env disk cwd = some m)
    (es : List (Event T C)) (f p : Path)
    (same : ∀ pre post, es = pre ++ post → ∃ c, Used env ((State.mk disk m).run env pre).disk f p c)
    (told : ∃ pre post, es = pre ++ post ∧ (pre = [] ∨ ∃ before, pre = before ++ [.update p true]) ∧
      ∀ mid rest, post = mid ++ rest → ((State.mk disk m).run env (pre ++ mid)).disk p = ((State.mk disk m).run env pre).disk p) :
    ∃ c, Used env ((State.mk disk m).run env es).disk f p c ∧
      (((State.mk disk m).run env es).manager.configFor env ((State.mk disk m).run env es).disk f).2 = some (c, some p) := by
  simp only [used_eq] at same ⊢
  obtain ⟨pre, post, he, hpre, hpost⟩ := told
  have hsrc : m.sources = [] := by
    rw [Manager.new] at hm
    cases hl : load env disk cwd with
    | panic => rw [hl] at hm; cases hm
    | found c q l => rw [hl] at hm; cases q <;> (cases hm; rfl)
  have hcached : Cached f p ((State.mk disk m).run env es).manager :=
    cached_run es ⟨disk, m⟩ ⟨.inl (by rw [hsrc]; rfl), fun h => by rw [hsrc] at h; cases h⟩ same
  obtain ⟨c0, l0, hu0⟩ := same pre post he
  have hr0 := (load_holds hu0).1
  have hstart : StoredAs p c0 ((State.mk disk m).run env pre).manager := by
    rcases hpre with rfl | ⟨before, rfl⟩
    · rw [Manager.new] at hm
      show StoredAs p c0 m
      cases hl : load env disk cwd with
      | panic => rw [hl] at hm; cases hm
      | found c q l =>
        rw [hl] at hm
        cases q with
        | none => cases hm; exact .inl rfl
        | some q =>
          cases hm
          show ([(q, c)] : List (Path × C)).lookup p = none ∨ ([(q, c)] : List (Path × C)).lookup p = some c0
          by_cases hq : p = q
          · subst hq
            have h1 := (load_holds hl).1
            have h2 : tryFromPath env disk p = .ok (some c0) := hr0
            rw [h2] at h1
            cases h1
            exact .inr lookup_self
          · exact .inl (lookup_of_ne hq)
    · rw [run_append]
      rw [run_append] at hr0
      have hr : tryFromPath env ((State.mk disk m).run env before).disk p = .ok (some c0) := hr0
      show StoredAs p c0 ((((State.mk disk m).run env before).manager).update env ((State.mk disk m).run env before).disk p true)
      rw [Manager.update, hr]
      exact .inr lookup_self
  have hsame : ∀ mid rest, post = mid ++ rest → tryFromPath env ((State.mk disk m).run env (pre ++ mid)).disk p = .ok (some c0) := by
    intro mid rest hmr
    rw [tryFromPath_congr (hpost mid rest hmr)]
    exact hr0
  have hkeeps : StoredAs p c0 ((State.mk disk m).run env es).manager := by
    rw [he, run_append]
    refine keeps_run post _ hstart (fun mid rest hmr => ?_)
    have := hsame mid rest hmr
    rw [run_append] at this
    exact this
  obtain ⟨c, hu⟩ := same es [] (by rw [List.append_nil])
  have hc : c = c0 := by
    have h1 := hsame post [] (by rw [List.append_nil])
    rw [← he] at h1
    obtain ⟨l, hl⟩ := hu
    have h2 := (load_holds hl).1
    rw [h1] at h2
    cases h2
    rfl
  subst hc
  refine ⟨c, hu, ?_⟩
  rw [Manager.configFor]
  rcases hcached.1 with hn | hs
  · rw [hn]
    obtain ⟨l, hl⟩ := hu
    rw [hl]
    rcases hkeeps with hk | hk
    · simp only [hk, Manager.stored, lookup_self]
    · simp only [hk, Manager.stored]
  · rw [hs]
    have hk := hkeeps.resolve_left (hcached.2 hs)
    simp only [Manager.stored, hk]

/-- The settings the editor sent last. -/
def lastSettings : List (Event T C) → C → C
  | [], c => c
  | .settings c :: es, _ => lastSettings es c
  | _ :: es, c => lastSettings es c

/-- A document without a configuration: not cached, and the configuration without a file is `c`. -/
def Alone (env : Env T C) (f : Path) (c : C) (m : Manager C) : Prop := m.sources.lookup f = none ∧ m.default.getD env.default = c

theorem default_alone (env : Env T C) (m : Manager C) :
    (m.getDefault env).1.default.getD env.default = m.default.getD env.default ∧ (m.getDefault env).2 = (m.default.getD env.default, none) := by
  rw [Manager.getDefault]
  cases h : m.default with
  | none => exact ⟨rfl, rfl⟩
  | some c => exact ⟨by rw [h], rfl⟩

theorem stored_alone (env : Env T C) (m : Manager C) (p : Path) :
    (m.stored env p).1.default.getD env.default = m.default.getD env.default := by
  rw [Manager.stored]
  cases m.stores.lookup p with
  | some c => rfl
  | none => exact (default_alone env m).1

theorem alone_run {env : Env T C} {f : Path} : (es : List (Event T C)) → (s : State T C) → (c : C) → Alone env f c s.manager →
    (∀ pre post, es = pre ++ post → ∃ c l, load env (s.run env pre).disk (parent f) = .found c none l) →
    Alone env f (lastSettings es c) (s.run env es).manager
  | [], _, _, h, _ => h
  | e :: es, s, c, h, hu => by
    have next := fun c' (h' : Alone env f c' (s.step env e).manager) =>
      alone_run es (s.step env e) c' h' (fun pre post he => hu (e :: pre) post (by rw [he]; rfl))
    obtain ⟨c0, l0, h0⟩ := hu [] _ rfl
    have h0 : load env s.disk (parent f) = .found c0 none l0 := h0
    cases e with
    | files d => exact next c h
    | settings c' => exact next c' ⟨h.1, rfl⟩
    | update q r =>
      refine next c ?_
      show Alone env f c (s.manager.update env s.disk q r)
      rw [Manager.update]
      split
      · split
        · exact h
        · split
          · exact h
          · exact h
      · exact h
    | request g =>
      refine next c ?_
      show Alone env f c (s.manager.configFor env s.disk g).1
      refine ⟨?_, ?_⟩
      · rcases request_maps env s.disk s.manager g with ⟨h1, _⟩ | ⟨c', p, l, hl, h1, _⟩
        · rw [h1]; exact h.1
        · rw [h1]
          by_cases hg : f = g
          · subst hg
            rw [h0] at hl
            cases hl
          · rw [lookup_of_ne hg]; exact h.1
      · refine Eq.trans ?_ h.2
        rw [Manager.configFor]
        cases s.manager.sources.lookup g with
        | some p => exact stored_alone env _ p
        | none =>
          cases hl : load env s.disk (parent g) with
          | panic => rfl
          | found c' p l =>
            cases p with
            | none => exact (default_alone env _).1
            | some p => exact stored_alone env _ p

/-- **C88 (partial).** For a document that has no configuration file all the time, the editor uses the settings it sent last, or the default.
Missing as above. -/
theorem C88_settings_partial (env : Env T C) (disk : Disk T) (cwd : Option Path) (m : Manager C) (hm : Manager.new env disk cwd = some m)
    (es : List (Event T C)) (f : Path)
    (same : ∀ pre post, es = pre ++ post → ∃ c l, load env ((State.mk disk m).run env pre).disk (directoryOf f) = .found c none l) :
    (((State.mk disk m).run env es).manager.configFor env ((State.mk disk m).run env es).disk f).2 =
      some (lastSettings es env.default, none) := by
  simp only [← parent_eq] at same
  have h0 : Alone env f env.default m := by
    rw [Manager.new] at hm
    cases hl : load env disk cwd with
    | panic => rw [hl] at hm; cases hm
    | found c q l =>
      rw [hl] at hm
      cases q with
      | some q => cases hm; exact ⟨rfl, rfl⟩
      | none =>
        cases hm
        refine ⟨rfl, ?_⟩
        rw [load] at hl
        by_cases hno : ∀ d, cwd = some d → NoProject env disk d
        · rcases load_common hno with ⟨_, h2⟩ | ⟨q, l', hf, ⟨c', hc', h2⟩ | ⟨_, h2⟩⟩
          · rw [load, hl] at h2; cases h2; rfl
          · rw [load, hl] at h2; cases h2
          · rw [load, hl] at h2; cases h2
        · cases cwd with
          | none => exact absurd (fun d hd => by cases hd) hno
          | some d =>
            rcases load_project (env := env) (disk := disk) d with h1 | ⟨q, c', h1, h2⟩
            · exact absurd (fun e he => by cases he; exact h1) hno
            · rw [load, hl] at h1; cases h1
  have h := alone_run es ⟨disk, m⟩ env.default h0 same
  obtain ⟨c, l, hl⟩ := same es [] (by rw [List.append_nil])
  rw [Manager.configFor, h.1, hl]
  show some _ = _
  rw [(default_alone env _).2, h.2]

/-! ### witnesses -/

/-- Texts are numbers: an even number is a configuration, and a `pyproject.toml` has one if it can be divided by four. -/
def sampleEnv : Env Nat Nat where
  parse t := if t % 2 = 0 then some t else none
  parsePyproject t := if t % 2 = 0 then some (if t % 4 = 0 then some t else none) else none
  default := 0
  xdg := none
  home := some ["home".toList]

/-- A disk with these files. -/
def diskOf (l : List (Path × Nat)) : Disk Nat := fun p => (l.lookup p).map some

def dirA : Path := ["a".toList]
def dirAB : Path := ["a".toList, "b".toList]

/-- In `/a/b`: a `.tombi.toml` that cannot be parsed and a `pyproject.toml` without the table; in `/a`: two configurations. -/
def someDisk : Disk Nat := diskOf [(dirAB ++ [".tombi.toml".toList], 1), (dirAB ++ ["pyproject.toml".toList], 2),
  (dirA ++ ["tombi.toml".toList], 6), (dirA ++ ["pyproject.toml".toList], 8)]

example : Nearest sampleEnv someDisk dirAB (dirA ++ ["tombi.toml".toList]) 6 :=
  (C88_nearest ..).1 (by decide +kernel)

/-- **C88**, where it fails: a configuration of the user that cannot be parsed. -/
theorem C88_user_false : load sampleEnv (diskOf [(["home".toList, ".config".toList, "tombi".toList, "config.toml".toList], 1)]) (some dirA) = .panic := by
  decide +kernel

/-- The document `/a/b/x.toml`. -/
def docX : Path := dirAB ++ ["x.toml".toList]
/-- A configuration in `/a`, then one in `/a/b`, too. -/
def before : Disk Nat := diskOf [(dirA ++ ["tombi.toml".toList], 6)]
def after : Disk Nat := diskOf [(dirAB ++ ["tombi.toml".toList], 10), (dirA ++ ["tombi.toml".toList], 6)]

/-- **C88**, where it fails: a configuration nearer to the document is made after the first request, and the editor is told of it. The command
line uses it, the editor does not. -/
theorem C88_editor_false : ∃ m, Manager.new sampleEnv before (some dirA) = some m ∧
    let s := (State.mk before m).run sampleEnv [.request docX, .files after, .update (dirAB ++ ["tombi.toml".toList]) true]
    Used sampleEnv s.disk docX (dirAB ++ ["tombi.toml".toList]) 10 ∧
    (s.manager.configFor sampleEnv s.disk docX).2 = some (6, some (dirA ++ ["tombi.toml".toList])) := by
  refine ⟨⟨[], [(dirA ++ ["tombi.toml".toList], 6)], none⟩, by decide +kernel, ⟨.project, by decide +kernel⟩, by decide +kernel⟩

/-- The configuration in `/a` with other contents. -/
def changed : Disk Nat := diskOf [(dirA ++ ["tombi.toml".toList], 12)]

/-- A history of the hypotheses: a request, a change of the configuration, the update, another request. -/
example : ∃ m, Manager.new sampleEnv before (some dirA) = some m ∧
    (let s := (State.mk before m).run sampleEnv [.request docX, .files changed, .update (dirA ++ ["tombi.toml".toList]) true, .request docX]
     (s.manager.configFor sampleEnv s.disk docX).2 = some (12, some (dirA ++ ["tombi.toml".toList]))) := by
  have hm : Manager.new sampleEnv before (some dirA) = some ⟨[], [(dirA ++ ["tombi.toml".toList], 6)], none⟩ := by decide +kernel
  refine ⟨_, hm, ?_⟩
  obtain ⟨c, ⟨l, hc⟩, hr⟩ := C88_editor_partial sampleEnv before (some dirA) _ hm
    [.request docX, .files changed, .update (dirA ++ ["tombi.toml".toList]) true, .request docX] docX (dirA ++ ["tombi.toml".toList])
    (by
      intro pre post he
      match pre, he with
      | [], _ => exact ⟨6, .project, by decide +kernel⟩
      | [_], he => cases he; exact ⟨6, .project, by decide +kernel⟩
      | [_, _], he => cases he; exact ⟨12, .project, by decide +kernel⟩
      | [_, _, _], he => cases he; exact ⟨12, .project, by decide +kernel⟩
      | [_, _, _, _], he => cases he; exact ⟨12, .project, by decide +kernel⟩
      | _ :: _ :: _ :: _ :: _ :: _, he => cases he)
    ⟨[.request docX, .files changed, .update (dirA ++ ["tombi.toml".toList]) true], [.request docX], rfl, .inr ⟨[.request docX, .files changed], rfl⟩, by
      intro mid rest he
      match mid, he with
      | [], _ => rfl
      | [_], he => cases he; rfl
      | _ :: _ :: _, he => cases he⟩
  have hl : load sampleEnv changed (directoryOf docX) = .found 12 (some (dirA ++ ["tombi.toml".toList])) .project := by decide +kernel
  have hc : load sampleEnv changed (directoryOf docX) = .found c (some (dirA ++ ["tombi.toml".toList])) l := hc
  rw [hl] at hc
  cases hc
  exact hr

/-- A history of the hypotheses of the other theorem: no files, settings, a request. -/
example : ∃ m, Manager.new sampleEnv (diskOf []) (some dirA) = some m ∧
    ∀ pre post, ([.settings 4, .request docX] : List (Event Nat Nat)) = pre ++ post →
      ∃ c l, load sampleEnv ((State.mk (diskOf []) m).run sampleEnv pre).disk (directoryOf docX) = .found c none l := by
  refine ⟨⟨[], [], some 0⟩, by decide +kernel, ?_⟩
  intro pre post he
  match pre, he with
  | [], _ => exact ⟨0, .default, by decide +kernel⟩
  | [_], he => cases he; exact ⟨0, .default, by decide +kernel⟩
  | [_, _], he => cases he; exact ⟨0, .default, by decide +kernel⟩
  | _ :: _ :: _ :: _, he => cases he

end Tombi.ConfigFile
