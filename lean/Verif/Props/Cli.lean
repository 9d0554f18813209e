import Verif.Proofs.Cli
import Verif.Props.Editor
/-!
C73: what `tombi format` does to files, under every schedule of its tasks and at every point where it may be killed.
C74: what the exit code of `tombi format` and `tombi lint` says.
C77: `tombi format -`.
-/
namespace Tombi.Cli
open Cli.Spec
open Tombi.Reading (sampleEnv)

/-! ### C73: the files -/

/-- **C73**: `tombi format --check` changes no file, whatever happens. -/
theorem C73_check_writes_nothing (S : Setup) (hc : S.check = true) (f : Files) (ps : List Path) (sched : Schedule) :
    ((start f ps).run S sched).files = f :=
  (inv_run (.inl hc) (inv_start S f ps) sched).checked hc

/-- A step changes no file but the one of its task: also when several tasks have the same file. -/
theorem stepTask_others (S : Setup) (f : Files) (t : Task) (e : Event) {q : Path} (h : q ≠ t.path) :
    (stepTask S f t e).1 q = f q := by
  obtain ⟨p, st, r⟩ := t
  change q ≠ p at h
  cases st with
  | reading buf =>
    cases e with
    | go n => simp only [stepTask]; split <;> rfl
    | _ => rfl
  | resetting out =>
    cases e with
    | go n => exact set_other _ _ h
    | _ => rfl
  | writing d rest =>
    cases rest with
    | nil => cases e <;> rfl
    | cons x xs =>
      cases e with
      | go n => exact set_other _ _ h
      | _ => rfl
  | finished => cases e <;> rfl

/-- **C73**: a file that tombi is not asked to format is never changed. -/
theorem C73_others_untouched (S : Setup) (f : Files) (ps : List Path) (sched : Schedule) {q : Path} (hq : q ∉ ps) :
    ((start f ps).run S sched).files q = f q := by
  have : ∀ (sched : Schedule) (s : State), q ∉ s.tasks.map Task.path → (s.run S sched).files q = s.files q := by
    intro sched
    induction sched with
    | nil => intro s _; rfl
    | cons x xs ih =>
      intro s hs
      have hstep : (s.step S x.1 x.2).files q = s.files q ∧ q ∉ (s.step S x.1 x.2).tasks.map Task.path := by
        unfold State.step
        cases hi : s.tasks[x.1]? with
        | none => exact ⟨rfl, hs⟩
        | some t =>
          have hm : t.path ∈ s.tasks.map Task.path := List.mem_map_of_mem (List.mem_of_getElem? hi)
          refine ⟨stepTask_others S s.files t x.2 fun e => hs (e ▸ hm), ?_⟩
          show q ∉ (s.tasks.set x.1 _).map Task.path
          rw [List.map_set, stepTask_path]
          intro hm'
          rcases List.mem_or_eq_of_mem_set hm' with h | h
          · exact hs h
          · exact hs (h ▸ hm)
      have := ih _ hstep.2
      rw [hstep.1] at this
      exact this
  exact this sched _ (by simpa [start, Function.comp_def] using hq)

/-- **C73**: when every task has come to its end and no operation on a file has failed, every file holds its formatted text,
or its old text when that has syntax errors. Missing: a file that is given twice (`C73_duplicate_false`). -/
theorem C73_formatted_partial (S : Setup) (hc : S.check = false) (f : Files) {ps : List Path} (hn : ps.Nodup)
    {sched : Schedule} (hf : NoFailure sched) (hd : AllDone ((start f ps).run S sched)) {p : Path} (hp : p ∈ ps) :
    ((start f ps).run S sched).files p = target S f p := by
  have h := inv_run (.inr hn) (inv_start S f ps) sched
  rw [clean_of_noFailure hf] at h
  rw [← h.paths] at hp
  obtain ⟨t, ht, rfl⟩ := List.mem_map.mp hp
  obtain ⟨i, hi⟩ := List.getElem?_of_mem ht
  have hg := h.good i t hi
  have hst := hd t ht
  unfold Good at hg
  rw [hst] at hg
  revert hg
  cases t.result with
  | none => exact fun hg => hg.elim
  | some o =>
    cases o with
    | unchanged => exact fun hg => by rw [hg.1, target, hg.2]; rfl
    | formatted =>
      rintro ⟨-, out, h1, -, -, h4⟩
      rw [h4 rfl, target, h1]; rfl
    | failed =>
      rintro ⟨-, h2⟩
      obtain ⟨h3, h4 | h4⟩ := h2 rfl
      · rw [h3, target, h4]; rfl
      · rw [hc] at h4; exact absurd h4.1 (by decide)

/-- **C73**: at every point where tombi may be killed, and whatever fails, a file holds its old text or the start of its formatted
text. Missing: that it holds one of the two texts as a whole (`C73_crash_false`). -/
theorem C73_crash_partial (S : Setup) (f : Files) {ps : List Path} (hn : ps.Nodup) (sched : Schedule) (p : Path) :
    ((start f ps).run S sched).files p = f p ∨ PartlyWritten S f p (((start f ps).run S sched).files p) := by
  have h := inv_run (.inr hn) (inv_start S f ps) sched
  by_cases hp : p ∈ ps
  · rw [← h.paths] at hp
    obtain ⟨t, ht, rfl⟩ := List.mem_map.mp hp
    obtain ⟨i, hi⟩ := List.getElem?_of_mem ht
    have hg := h.good i t hi
    unfold Good at hg
    split at hg
    · exact .inl hg.1
    · exact .inl hg.1
    · obtain ⟨h1, h2, -, h4, -⟩ := hg
      exact .inr ⟨_, h1, h2, by rw [h4]; exact List.prefix_append _ _⟩
    · split at hg
      · exact hg.elim
      · exact .inl hg.1
      · obtain ⟨-, out, h1, h2, h3, -⟩ := hg
        exact .inr ⟨out, h1, h2, h3⟩
      · rcases hg.1 with h1 | h1
        · exact .inl h1
        · exact .inr h1.2
  · exact .inl (C73_others_untouched S f ps sched hp)

/-- **C73**: a file with syntax errors, and a file that is already formatted, is never touched. -/
theorem C73_untouched (S : Setup) (f : Files) {ps : List Path} (hn : ps.Nodup) (sched : Schedule) {p : Path}
    (hp : S.format p (f p) = none ∨ S.format p (f p) = some (f p)) : ((start f ps).run S sched).files p = f p := by
  rcases C73_crash_partial S f hn sched p with h | ⟨out, h1, h2, -⟩
  · exact h
  · rcases hp with hp | hp
    · rw [hp] at h1; cases h1
    · rw [hp] at h1; exact absurd (Option.some.inj h1).symm h2

/-- **C73**: tombi comes to its end: when every task gets as many turns as its file and its formatted text have characters, and
three more, then all tasks are done. -/
theorem C73_ends (S : Setup) (f : Files) {ps : List Path} (hn : S.check = true ∨ ps.Nodup) (sched : Schedule)
    (ht : ∀ i p, ps[i]? = some p → (f p).length + ((S.format p (f p)).getD []).length + 3 ≤ turns sched i) :
    AllDone ((start f ps).run S sched) := by
  intro t' hm
  obtain ⟨i, hi⟩ := List.getElem?_of_mem hm
  have h := inv_run hn (inv_start S f ps) sched
  have hpi : ps[i]? = some t'.path := by rw [← h.paths, List.getElem?_map, hi]; rfl
  have h0 : (start f ps).tasks[i]? = some ⟨t'.path, .reading [], none⟩ := by simp [start, hpi]
  obtain ⟨t2, h2, h3⟩ := rank_run hn sched (inv_start S f ps) h0
  rw [hi] at h2
  obtain rfl := Option.some.inj h2
  have := ht i _ hpi
  refine rank_zero (S := S) (f0 := f) ?_
  simp only [rank, List.length_nil, Nat.sub_zero] at h3 ⊢
  omega

/-! ### examples, and what C73 is not -/

/-- `tombi format` with the usual settings. -/
def sampleSetup (check : Bool) : Setup := ⟨check, fun _ => true, fun _ => true, fun _ => Editing.formatToml sampleEnv⟩

def fileA : Path := ["a.toml".toList]
def fileB : Path := ["b.toml".toList]

/-- Two files; the second one has a syntax error. -/
def sampleFiles : Files := fun p => if p = fileA then "a=1\nb=2\n".toList else if p = fileB then "a = [".toList else []

/-- Both tasks read; then the first one writes, in two pieces. -/
def sampleSchedule : Schedule :=
  [(0, .go 3), (1, .go 9), (0, .go 3), (1, .go 0), (0, .go 0), (0, .go 0), (0, .go 5), (0, .go 20), (0, .go 0)]

theorem sample_runs :
    ((start sampleFiles [fileA, fileB]).run (sampleSetup false) sampleSchedule).files fileA = "a = 1\nb = 2\n".toList ∧
    ((start sampleFiles [fileA, fileB]).run (sampleSetup false) sampleSchedule).tasks.map (fun t => (t.stage, t.result)) =
      [(.finished, some .formatted), (.finished, some .failed)] := by
  constructor <;> decide +kernel

/-- The hypotheses of C73 hold of this run. -/
example : [fileA, fileB].Nodup ∧ NoFailure sampleSchedule ∧
    AllDone ((start sampleFiles [fileA, fileB]).run (sampleSetup false) sampleSchedule) := by
  refine ⟨by decide, by unfold NoFailure; decide, ?_⟩
  intro t ht
  have h := List.mem_map_of_mem (f := fun t : Task => (t.stage, t.result)) ht
  rw [sample_runs.2] at h
  simp only [List.mem_cons, Prod.mk.injEq, List.not_mem_nil, or_false] at h
  rcases h with h | h <;> exact h.1

/-- **C73** is false when tombi is killed between emptying a file and writing it: the text of the file is gone. -/
theorem C73_crash_false :
    ((start sampleFiles [fileA]).run (sampleSetup false) [(0, .go 99), (0, .go 0), (0, .go 0)]).files fileA = [] ∧
    sampleFiles fileA ≠ [] ∧ Editing.formatToml sampleEnv (sampleFiles fileA) = some "a = 1\nb = 2\n".toList := by
  refine ⟨?_, ?_, ?_⟩ <;> decide +kernel

/-- **C73** is false when a write fails after tokio has taken the text over: the file is empty, but counted as formatted. -/
theorem C73_write_error_false :
    ((start sampleFiles [fileA]).run (sampleSetup false) [(0, .go 99), (0, .go 0), (0, .go 0), (0, .handOver), (0, .fail)]).files fileA
      = [] ∧
    ((start sampleFiles [fileA]).run (sampleSetup false)
      [(0, .go 99), (0, .go 0), (0, .go 0), (0, .handOver), (0, .fail)]).tasks.map (fun t => (t.stage, t.result))
      = [(.finished, some .formatted)] := by
  constructor <;> decide +kernel

/-- **C73** is false when a file is given twice, as in `tombi format a.toml .`: one task reads the start of the file, the other one
empties it, and in the end the second key is lost, although nothing failed and both tasks report success. -/
theorem C73_duplicate_false :
    ((start sampleFiles [fileA, fileA]).run (sampleSetup false)
      [(1, .go 3), (0, .go 99), (0, .go 0), (0, .go 0), (1, .go 0), (0, .go 99), (0, .go 0), (1, .go 0), (1, .go 99), (1, .go 0)]).files fileA
      = "a = 1\n".toList ∧
    ((start sampleFiles [fileA, fileA]).run (sampleSetup false)
      [(1, .go 3), (0, .go 99), (0, .go 0), (0, .go 0), (1, .go 0), (0, .go 99), (0, .go 0), (1, .go 0), (1, .go 99), (1, .go 0)]).tasks.map
        (fun t => (t.stage, t.result)) = [(.finished, some .formatted), (.finished, some .formatted)] := by
  constructor <;> decide +kernel

/-! ### C74: the exit code -/

theorem results_of {S : Setup} {f : Files} {ps : List Path} {sched : Schedule} (hn : S.check = true ∨ ps.Nodup)
    (hd : AllDone ((start f ps).run S sched)) {rs : List Outcome} (hj : Joined ((start f ps).run S sched) rs) :
    (∀ o ∈ rs, ∃ p ∈ ps, Good S f ((start f ps).run S sched).files (sched.all fun x => x.2 != .fail) ⟨p, .finished, some o⟩) ∧
    (∀ p ∈ ps, ∃ o ∈ rs, Good S f ((start f ps).run S sched).files (sched.all fun x => x.2 != .fail) ⟨p, .finished, some o⟩) := by
  have h := inv_run hn (inv_start S f ps) sched
  rw [Bool.true_and] at h
  constructor
  · intro o ho
    have : some o ∈ ((start f ps).run S sched).tasks.map Task.result := hj.mem_iff.mpr (List.mem_map_of_mem ho)
    obtain ⟨t, ht, hr⟩ := List.mem_map.mp this
    obtain ⟨i, hi⟩ := List.getElem?_of_mem ht
    have hg := h.good i t hi
    refine ⟨t.path, h.paths ▸ List.mem_map_of_mem ht, ?_⟩
    have hst := hd t ht
    obtain ⟨p, st, r⟩ := t
    change st = _ at hst
    change r = _ at hr
    rw [hst, hr] at hg
    exact hg
  · intro p hp
    rw [← h.paths] at hp
    obtain ⟨t, ht, rfl⟩ := List.mem_map.mp hp
    obtain ⟨i, hi⟩ := List.getElem?_of_mem ht
    have hg := h.good i t hi
    have hst := hd t ht
    obtain ⟨p, st, r⟩ := t
    change st = _ at hst
    rw [hst] at hg
    cases r with
    | none => exact hg.elim
    | some o =>
      refine ⟨o, ?_, hg⟩
      have : some o ∈ rs.map some := hj.mem_iff.mp (List.mem_map_of_mem (f := Task.result) ht)
      simpa using this

/-- **C74**: every file that tombi finds is counted exactly once. -/
theorem C74_counted (S : Setup) (f : Files) (es : List Entry) (sched : Schedule) {rs : List Outcome}
    (hj : Joined ((start f (spawned S es)).run S sched) rs) :
    (summary S es rs).success + (summary S es rs).notNeeded + (summary S es rs).skipped + (summary S es rs).error = es.length := by
  have hl : rs.length = (spawned S es).length := by
    have h1 := hj.length_eq
    simp only [List.length_map] at h1
    rw [← h1]
    have : ∀ (sched : Schedule) (s : State), (s.run S sched).tasks.length = s.tasks.length := by
      intro sched
      induction sched with
      | nil => intro s; rfl
      | cons x xs ih =>
        intro s
        have : (s.step S x.1 x.2).tasks.length = s.tasks.length := by
          unfold State.step
          split <;> simp
        rw [← this]
        exact ih _
    rw [this]
    simp [start]
  unfold summary
  rw [join_total, hl]
  have := entry_total S es {}
  simpa using this

/-- **C74**: whatever happens, `tombi format` exits with zero only when there is nothing to report: every file could be opened and
formatted, or, with `--check`, is formatted. -/
theorem C74_zero_partial (S : Setup) (f : Files) {es : List Entry} (hn : S.check = true ∨ (spawned S es).Nodup) {sched : Schedule}
    (hd : AllDone ((start f (spawned S es)).run S sched)) {rs : List Outcome}
    (hj : Joined ((start f (spawned S es)).run S sched) rs) (h0 : (summary S es rs).exitCode = 0) : ∀ e ∈ es, Fine S f e := by
  obtain ⟨h1, h2⟩ := (exit_zero S es rs).mp h0
  intro e he
  cases e with
  | skipped p => trivial
  | error => exact absurd (h1 _ he) (by simp [refused])
  | found p =>
    intro hen
    have ho : S.opens p = true := by simpa [refused, hen] using h1 _ he
    refine ⟨ho, ?_⟩
    obtain ⟨o, hor, hg⟩ := (results_of hn hd hj).2 p (mem_spawned.mpr ⟨he, hen, ho⟩)
    cases o with
    | failed => exact absurd hor h2
    | unchanged =>
      have : S.format p (f p) = some (f p) := hg.2
      split
      · exact this
      · exact ⟨_, this⟩
    | formatted =>
      obtain ⟨hc, out, h3, -⟩ := hg
      rw [if_neg (by simp [hc])]
      exact ⟨out, h3⟩

/-- **C74**: when no operation on a file fails, the exit code of `tombi format` is zero exactly when there is nothing to report, under
every schedule, in whatever order the tasks are joined. Without `--check` no file may be given twice (missing). -/
theorem C74_exit_code_partial (S : Setup) (f : Files) {es : List Entry} (hn : S.check = true ∨ (spawned S es).Nodup)
    {sched : Schedule} (hf : NoFailure sched) (hd : AllDone ((start f (spawned S es)).run S sched)) {rs : List Outcome}
    (hj : Joined ((start f (spawned S es)).run S sched) rs) :
    (summary S es rs).exitCode = 0 ↔ ∀ e ∈ es, Fine S f e := by
  refine ⟨C74_zero_partial S f hn hd hj, fun h => (exit_zero S es rs).mpr ⟨?_, ?_⟩⟩
  · intro e he
    have := h e he
    cases e with
    | skipped p => rfl
    | error => exact this.elim
    | found p =>
      cases hen : S.enabled p with
      | false => simp [refused, hen]
      | true => simp [refused, (this hen).1]
  · intro hm
    obtain ⟨p, hp, hg⟩ := (results_of hn hd hj).1 _ hm
    obtain ⟨he, hen, -⟩ := mem_spawned.mp hp
    have h1 := (h _ he hen).2
    rw [clean_of_noFailure hf] at hg
    obtain ⟨-, h3⟩ := hg.2 rfl
    change S.format p (f p) = none ∨ S.check = true ∧ S.format p (f p) ≠ some (f p) at h3
    rcases h3 with h3 | ⟨hc, h3⟩
    · split at h1
      · rw [h3] at h1; cases h1
      · obtain ⟨out, h1⟩ := h1; rw [h3] at h1; cases h1
    · rw [if_pos hc] at h1; exact h3 h1

/-- **C74**: after a `tombi format` that exits with zero, `tombi format --check` on the same files exits with zero, when formatting a
formatted text changes nothing (C66). -/
theorem C74_then_check_partial (S : Setup) (hc : S.check = false) (f : Files) {es : List Entry} (hn : (spawned S es).Nodup)
    {sched : Schedule} (hf : NoFailure sched) (hd : AllDone ((start f (spawned S es)).run S sched)) {rs : List Outcome}
    (hj : Joined ((start f (spawned S es)).run S sched) rs) (h0 : (summary S es rs).exitCode = 0)
    (again : ∀ p ∈ spawned S es, ∀ out, S.format p (f p) = some out → S.format p out = some out)
    {sched' : Schedule} (hf' : NoFailure sched')
    (hd' : AllDone ((start ((start f (spawned S es)).run S sched).files (spawned S es)).run { S with check := true } sched'))
    {rs' : List Outcome}
    (hj' : Joined ((start ((start f (spawned S es)).run S sched).files (spawned S es)).run { S with check := true } sched') rs') :
    (summary { S with check := true } es rs').exitCode = 0 := by
  have hsp : spawned { S with check := true } es = spawned S es := by
    have : ∀ es, spawned { S with check := true } es = spawned S es := by
      intro es
      induction es with
      | nil => rfl
      | cons e es ih => cases e <;> simp [spawned, ih]
    exact this es
  refine (C74_exit_code_partial { S with check := true } _ (.inl rfl) hf' (by rw [hsp]; exact hd') (by rw [hsp]; exact hj')).mpr ?_
  have h1 := C74_zero_partial S f (.inr hn) hd hj h0
  intro e he
  have h2 := h1 e he
  cases e with
  | skipped p => trivial
  | error => exact h2
  | found p =>
    intro hen
    obtain ⟨ho, h3⟩ := h2 hen
    refine ⟨ho, ?_⟩
    rw [if_neg (by simp [hc])] at h3
    obtain ⟨out, h3⟩ := h3
    have hp : p ∈ spawned S es := mem_spawned.mpr ⟨he, hen, ho⟩
    have h4 := C73_formatted_partial S hc f hn hf hd hp
    rw [if_pos rfl, h4, target, h3]
    exact again p hp out h3

/-- **C74** with the model of the formatter: after a `tombi format` that exits with zero, `tombi format --check` exits with zero. Missing: what
`Editing.C66_edited_partial` misses, and a file that is given twice. -/
theorem C74_toml_then_check_partial (S : Setup) (hc : S.check = false) {E : Path → Formatter.Env} {fmt : Text → Option Text}
    (hS : S.format = fun p => Editing.formatToml (E p))
    (hE : ∀ p, (E p).Usual fmt ∧ (E p).defs.lineWidth = none ∧ (E p).defs.keyValueEqualAlignment = false)
    (hfm : Reading.KeepsClean fmt) (f : Files) {es : List Entry} (hn : (spawned S es).Nodup)
    (hsrc : ∀ p ∈ spawned S es, ∃ r, Formatter.TomlSource (E p).G (f p) r ∧
      Spec.GatheredRoot (Reading.astRoot (E p).version (Formatter.docOf r.tree)) ∧
      (∀ t, (SyntaxKind.COMMENT, t) ∈ Formatter.treeWords r.tree →
        Format.documentDirective t = none ∧ Format.valueDirective t = some none ∧ ∀ c ∈ t, Reading.CommentChar c) ∧
      ∀ out, Editing.formatToml (E p) (f p) = some out → utf8Len out < 2 ^ 28)
    {sched : Schedule} (hf : NoFailure sched) (hd : AllDone ((start f (spawned S es)).run S sched)) {rs : List Outcome}
    (hj : Joined ((start f (spawned S es)).run S sched) rs) (h0 : (summary S es rs).exitCode = 0)
    {sched' : Schedule} (hf' : NoFailure sched')
    (hd' : AllDone ((start ((start f (spawned S es)).run S sched).files (spawned S es)).run { S with check := true } sched'))
    {rs' : List Outcome}
    (hj' : Joined ((start ((start f (spawned S es)).run S sched).files (spawned S es)).run { S with check := true } sched') rs') :
    (summary { S with check := true } es rs').exitCode = 0 := by
  refine C74_then_check_partial S hc f hn hf hd hj h0 ?_ hf' hd' hj'
  intro p hp out hout
  obtain ⟨r, h1, hg, h2, h3⟩ := hsrc p hp
  obtain ⟨e1, e2, e3⟩ := hE p
  rw [hS] at hout ⊢
  exact Editing.C66_edited_partial e1 hfm e2 e3 h1 hg (fun t ht => ⟨(h2 t ht).1, (h2 t ht).2.1⟩) (fun t ht => (h2 t ht).2.2) hout (h3 out hout)

/-- **C74** for `tombi lint`: it exits with zero exactly when every file that is to be linted can be opened and read, and no error is
reported about it (with `--error-on-warnings`: nothing at all). -/
theorem C74_lint (S : Setup) (w : Bool) (lint : Path → Option (List Level)) (es : List Entry) :
    (lintSummary S w lint es).exitCode = 0 ↔ ∀ e ∈ es, LintFine S w lint e := by
  have hfile : ∀ x, lintFile w x = true ↔ ∃ ds, x = some ds ∧ ∀ d ∈ ds, d = Level.warning ∧ w = false := by
    intro x
    cases x with
    | none => simp [lintFile]
    | some ds =>
      simp only [lintFile, Option.some.injEq, exists_eq_left']
      cases ds with
      | nil => simp
      | cons d ds =>
        cases w with
        | false => simp
        | true =>
          simp only [reduceCtorEq, if_false, if_true, decide_false, Bool.false_eq_true, and_false, false_iff]
          exact fun h => h d List.mem_cons_self
  induction es with
  | nil => simp [lintSummary, Summary.exitCode]
  | cons e es ih =>
    have hz : ∀ m : Summary, m.exitCode = 0 ↔ m.error = 0 := by
      intro m; unfold Summary.exitCode; split <;> simp <;> omega
    rw [hz] at ih ⊢
    rw [List.forall_mem_cons]
    refine Iff.trans ?_ (and_congr Iff.rfl ih)
    clear ih
    cases e with
    | skipped p => simp [lintSummary, LintFine]
    | error => simp [lintSummary, LintFine]
    | found p =>
      simp only [lintSummary, LintFine]
      cases hen : S.enabled p with
      | false => simp
      | true =>
        cases ho : S.opens p with
        | false => simp
        | true =>
          simp only [if_true, forall_const, true_and, ← hfile]
          cases lintFile w (lint p) <;> simp

/-- **C74**: `tombi lint` counts every file once. -/
theorem C74_lint_counted (S : Setup) (w : Bool) (lint : Path → Option (List Level)) (es : List Entry) :
    (lintSummary S w lint es).success + (lintSummary S w lint es).skipped + (lintSummary S w lint es).error = es.length := by
  induction es with
  | nil => rfl
  | cons e es ih =>
    cases e with
    | skipped p => simp only [lintSummary, List.length_cons]; omega
    | error => simp only [lintSummary, List.length_cons]; omega
    | found p =>
      simp only [lintSummary, List.length_cons]
      split
      · split
        · split
          · simp only []; omega
          · simp only []; omega
        · simp only []; omega
      · simp only []; omega

/-- The hypotheses of C74 hold of the run above, and its exit code is 1. -/
example : spawned (sampleSetup false) [.found fileA, .found fileB] = [fileA, fileB] ∧
    Joined ((start sampleFiles [fileA, fileB]).run (sampleSetup false) sampleSchedule) [.failed, .formatted] ∧
    (summary (sampleSetup false) [.found fileA, .found fileB] [.failed, .formatted]).exitCode = 1 := by
  refine ⟨by decide, ?_, by decide⟩
  have h : ((start sampleFiles [fileA, fileB]).run (sampleSetup false) sampleSchedule).tasks.map Task.result =
      [some .formatted, some .failed] := by
    have := congrArg (List.map Prod.snd) sample_runs.2
    simpa [List.map_map, Function.comp_def] using this
  unfold Joined
  rw [h]
  exact .swap _ _ _

/-- Formatting a file that is formatted: the condition of `C74_then_check_partial`. -/
example : Editing.formatToml sampleEnv (sampleFiles fileA) = some "a = 1\nb = 2\n".toList ∧
    Editing.formatToml sampleEnv "a = 1\nb = 2\n".toList = some "a = 1\nb = 2\n".toList := by
  constructor <;> decide +kernel

/-! ### C77: the standard input -/

/-- **C77**: without `--check`, `tombi format -` writes the formatted text, or the input itself when that has syntax errors; and its exit
code says which of the two. Missing: `C77_disabled_false`. -/
theorem C77_stdin_partial (format : Text → Option Text) (source : Text) :
    (formatStdin false true format source).1 = (format source).getD source ∧
    ((formatStdin false true format source).2.exitCode = 0 ↔ (format source).isSome = true) := by
  unfold formatStdin
  cases format source with
  | none => exact ⟨rfl, by simp [Summary.exitCode]⟩
  | some out =>
    refine ⟨rfl, ?_⟩
    simp only [Option.isSome_some, iff_true, Bool.false_eq_true, if_false, if_true]
    split <;> rfl

/-- **C77**: with `--check`, the exit code is zero exactly when the input is formatted. -/
theorem C77_stdin_check (format : Text → Option Text) (source : Text) :
    (formatStdin true true format source).2.exitCode = 0 ↔ format source = some source := by
  unfold formatStdin
  cases format source with
  | none => simp [Summary.exitCode]
  | some out =>
    simp only [if_true, Option.some.injEq]
    by_cases h : source = out
    · simp [h, Summary.exitCode]
    · have : ¬ out = source := fun e => h e.symm
      simp [h, this, Summary.exitCode]

/-- **C77** is false when an override of the settings switches the formatter off for the name that is given with `--stdin-filename`: tombi
writes nothing, and says that all is well. An editor that replaces its text by the output is left with nothing. -/
theorem C77_disabled_false (format : Text → Option Text) (source : Text) :
    formatStdin false false format source = ([], { notNeeded := 1 }) ∧
    (formatStdin false false format source).2.exitCode = 0 := ⟨rfl, rfl⟩

end Tombi.Cli
