import Verif.Proofs.SortedOrder
import Verif.Proofs.DocAccept2
/-! A valid document stays valid when its sections are sorted. -/
namespace Tombi
open Spec

variable {σ S : Type}

/-! ### the keys of a place -/

/-- The keys of a path. -/
def pathKeys (p : Path) : List DKey := p.filterMap fun | .key k => some k | .index _ => none

theorem pathKeys_append (a b : Path) : pathKeys (a ++ b) = pathKeys a ++ pathKeys b := List.filterMap_append ..

theorem pathKeys_keyPath (n : List DKey) : pathKeys (keyPath n) = n := by
  induction n with
  | nil => rfl
  | cons k n ih => exact congrArg (k :: ·) ih

theorem pathKeys_enter (opened : List Path) (p : Path) : pathKeys (enter opened p) = pathKeys p := by
  unfold enter
  split
  · rfl
  · rw [pathKeys_append]; simp [pathKeys]

theorem pathKeys_resolve (opened : List Path) (ks : List DKey) : ∀ cur, pathKeys (resolve opened cur ks) = pathKeys cur ++ ks := by
  induction ks with
  | nil => intro cur; simp [resolve]
  | cons k ks ih =>
    intro cur
    rw [resolve, ih, pathKeys_enter, pathKeys_append]
    simp [pathKeys]

theorem pathKeys_named (opened : List Path) {h : List DKey} (h0 : h ≠ []) : pathKeys (named opened h) = h := by
  obtain ⟨ks, k, rfl⟩ : ∃ ks k, h = ks ++ [k] := by
    rcases List.eq_nil_or_concat h with e | ⟨a, b, e⟩
    · exact absurd e h0
    · exact ⟨a, b, by rw [e, List.concat_eq_append]⟩
  unfold named
  rw [List.getLast?_concat]
  simp only [List.dropLast_concat]
  rw [pathKeys_append, pathKeys_resolve]
  simp [pathKeys]

theorem pathKeys_section (opened : List Path) {s : AstSection σ} {h : List DKey} (hs : s.header = some h) (h0 : h ≠ []) :
    pathKeys (sectionPath opened s) = h := by
  unfold sectionPath
  simp only [hs, Option.getD_some]
  split
  · rw [pathKeys_append, pathKeys_named opened h0]; simp [pathKeys]
  · exact pathKeys_named opened h0

theorem pathKeys_prefix {p q : Path} (h : p <+: q) : pathKeys p <+: pathKeys q := by
  obtain ⟨r, rfl⟩ := h
  exact ⟨pathKeys r, (pathKeys_append p r).symm⟩

/-- The name of a section, from its place. -/
theorem named_of_path {opened opened' : List Path} {s : AstSection σ} (h : sectionPath opened s = sectionPath opened' s) :
    named opened (s.header.getD []) = named opened' (s.header.getD []) := by
  unfold sectionPath at h
  simp only at h
  split at h
  · exact List.append_inj_left' h rfl
  · exact h

theorem named_prefix (opened : List Path) (s : AstSection σ) : named opened (s.header.getD []) <+: sectionPath opened s := by
  unfold sectionPath
  simp only
  split
  · exact List.prefix_append _ _
  · exact List.prefix_refl _

/-! ### the sections before -/

/-- The tables of sections with their places. -/
def doneBy (opened : List Path) : List (AstSection σ) → List (Path × List (AstKeyValue σ))
  | [] => []
  | s :: rest => (sectionPath opened s, s.kvs) :: doneBy (openedAfter opened s) rest

theorem allFollow_iff (sections : List (AstSection σ)) : ∀ (done : List (Path × List (AstKeyValue σ))) (opened : List Path),
    AllFollow done opened sections ↔ ∀ a s b, sections = a ++ s :: b → Follows (done ++ doneBy opened a) (openedBy opened a) s := by
  induction sections with
  | nil =>
    intro done opened
    refine ⟨fun _ a s b e => ?_, fun _ => trivial⟩
    simp at e
  | cons x rest ih =>
    intro done opened
    rw [AllFollow, ih]
    constructor
    · rintro ⟨h1, h2⟩ a s b e
      cases a with
      | nil =>
        simp only [List.nil_append, List.cons.injEq] at e
        obtain ⟨rfl, rfl⟩ := e
        rw [doneBy, List.append_nil]
        exact h1
      | cons y a =>
        simp only [List.cons_append, List.cons.injEq] at e
        obtain ⟨rfl, rfl⟩ := e
        have := h2 a s b rfl
        rw [List.append_assoc] at this
        exact this
    · intro h
      refine ⟨?_, fun a s b e => ?_⟩
      · have := h [] x rest rfl
        rwa [doneBy, List.append_nil] at this
      · have := h (x :: a) s b (by rw [e]; rfl)
        rw [List.append_assoc]
        exact this

theorem mem_doneBy (a : List (AstSection σ)) : ∀ (opened : List Path) (B : Path × List (AstKeyValue σ)),
    B ∈ doneBy opened a ↔ ∃ x t y, a = x ++ t :: y ∧ B = (sectionPath (openedBy opened x) t, t.kvs) := by
  induction a with
  | nil =>
    intro opened B
    refine ⟨fun h => (nomatch h), ?_⟩
    rintro ⟨x, t, y, e, -⟩
    simp at e
  | cons s a ih =>
    intro opened B
    rw [doneBy, List.mem_cons, ih]
    constructor
    · rintro (rfl | ⟨x, t, y, rfl, rfl⟩)
      · exact ⟨[], s, a, rfl, rfl⟩
      · exact ⟨s :: x, t, y, rfl, rfl⟩
    · rintro ⟨x, t, y, e, rfl⟩
      cases x with
      | nil =>
        simp only [List.nil_append, List.cons.injEq] at e
        obtain ⟨rfl, rfl⟩ := e
        exact .inl rfl
      | cons z x =>
        simp only [List.cons_append, List.cons.injEq] at e
        obtain ⟨rfl, rfl⟩ := e
        exact .inr ⟨x, t, y, rfl, rfl⟩

/-- Sections that are near are not interrupted. -/
theorem near_uninterrupted (done rest : List (AstSection σ)) (hf : Flat (done ++ rest)) (hn : Near (done ++ rest))
    (hh : HasHeaders (done ++ rest)) : UninterruptedFrom done.reverse (openedBy [] done) rest := by
  induction rest generalizing done with
  | nil => exact trivial
  | cons s rest ih =>
    refine ⟨fun header name h1 h2 h3 h4 h5 => ?_, ?_⟩
    · rw [flat_opened hf hh, List.mem_map] at h5
      obtain ⟨n, hm, e⟩ := h5
      have e' := congrArg pathKeys e
      rw [pathKeys_keyPath, pathKeys_named _ h4] at e'
      subst e'
      obtain ⟨s', hs', ha, hd⟩ := mem_arrayNames.1 hm
      obtain ⟨d1, d2, rfl⟩ := List.append_of_mem hs'
      refine ⟨d2.reverse, s', d1.reverse, by simp, ha, hd, fun b hb hba keys hk => ?_⟩
      refine hn d1 s' d2 s rest (by simp) ha n header hd h1 ?_ b (by simpa using hb) hba keys hk
      obtain ⟨r, rfl⟩ := h2
      cases n with
      | nil => exact absurd rfl h4
      | cons k n => rfl
    · have := ih (done ++ [s]) (by simpa using hf) (by simpa using hn) (by simpa using hh)
      rw [List.reverse_append, openedBy_append] at this
      exact this

/-! ### sections in another order -/

theorem filterMap_split {α β : Type} {f : α → Option β} {rs : List α} {a b : List β} {s : β} (h : rs.filterMap f = a ++ s :: b) :
    ∃ B m A, rs = B ++ m :: A ∧ B.filterMap f = a ∧ f m = some s ∧ A.filterMap f = b := by
  obtain ⟨l1, l2, e1, e2, e3⟩ := List.filterMap_eq_append_iff.1 h
  obtain ⟨c1, m, c2, f1, f2, f3, f4⟩ := List.filterMap_eq_cons_iff.1 e3
  refine ⟨l1 ++ c1, m, c2, by rw [e1, f1]; simp, ?_, f3, f4⟩
  rw [List.filterMap_append, e2, List.filterMap_eq_nil_iff.2 f2, List.append_nil]

theorem validKvs_key {l : List (AstKeyValue σ)} {kv : List DKey × AstValue σ} : ValidKvs l → kv ∈ kvAssigns l → kv.1 ≠ [] := by
  induction l with
  | nil => intro _ h; cases h
  | cons y l ih =>
    intro h1 h2
    rw [ValidKvs] at h1
    unfold kvAssigns at h2 ih
    obtain ⟨ks, v⟩ := y
    cases ks with
    | none => have h := h1.1; rw [ValidKv] at h; exact h.elim; all_goals simp
    | some ks =>
      cases v with
      | none => have h := h1.1; rw [ValidKv] at h; exact h.elim; all_goals simp
      | some v =>
        simp only [List.filterMap_cons, List.mem_cons] at h2
        rcases h2 with rfl | h2
        · have h := h1.1; rw [ValidKv] at h; exact h.1
        · exact ih h1.2 h2

/-- Sections of a valid document in another order that keeps the elements of arrays in order and puts no section before one it lies in. -/
theorem permuted_valid {kvs : List (AstKeyValue σ)} {sections : List (AstSection σ)} (hv : Valid ⟨kvs, sections⟩)
    (hf : Flat sections) (hn : Near sections) (hh : HasHeaders sections)
    (he : (AstRoot.tree ⟨[], sections⟩).2 = []) {rs : List Nat} (hperm : rs.Perm (List.range sections.length))
    (hb : rs.Pairwise fun x y => Before (pathAt (sectionAccessors [] sections) x) (pathAt (sectionAccessors [] sections) y))
    (hp : rs.Pairwise fun x y => pathAt (sectionAccessors [] sections) y <+: pathAt (sectionAccessors [] sections) x →
      pathAt (sectionAccessors [] sections) x = pathAt (sectionAccessors [] sections) y ∨ x < y) :
    Valid ⟨kvs, rs.filterMap (sections[·]?)⟩ := by
  obtain ⟨v1, v2, v3⟩ := hv
  refine ⟨v1, v2, ?_⟩
  simp only at v1 v2 v3 ⊢
  rw [allFollow_iff] at v3 ⊢
  intro a s b e
  obtain ⟨B, m, A, hrs, rfl, hs, rfl⟩ := filterMap_split e
  have hnd : rs.Nodup := hperm.nodup_iff.2 List.nodup_range
  have hlt : ∀ x ∈ rs, x < sections.length := fun x hx => List.mem_range.1 (hperm.mem_iff.1 hx)
  have hm : m < sections.length := hlt m (by rw [hrs]; simp)
  have hplace := same_place hf hn hh he hperm hb hrs hs
  have hnamed := named_of_path hplace
  -- the section in the source
  have src : ∀ i t, sections[i]? = some t → Follows ([([], kvs)] ++ doneBy [] (sections.take i)) (openedBy [] (sections.take i)) t :=
    fun i t hi => v3 _ t _ (split_at hi)
  have hmem : ∀ i j t, i < j → sections[i]? = some t →
      (sectionPath (openedBy [] (sections.take i)) t, t.kvs) ∈ [([], kvs)] ++ doneBy [] (sections.take j) := by
    intro i j t hij hi
    refine List.mem_append_right _ ((mem_doneBy _ _ _).2 ⟨sections.take i, t, (sections.take j).drop (i + 1), ?_, rfl⟩)
    have hti : (sections.take j)[i]? = some t := by rw [List.getElem?_take, if_pos hij]; exact hi
    have := split_at hti
    rwa [List.take_take, Nat.min_eq_left (by omega)] at this
  -- the sections before it
  have hdone : ∀ C ∈ [([], kvs)] ++ doneBy [] (B.filterMap (sections[·]?)), C = ([], kvs) ∨ ∃ B1 i B2 t, B = B1 ++ i :: B2 ∧
      sections[i]? = some t ∧ C = (sectionPath (openedBy [] (sections.take i)) t, t.kvs) ∧ i ≠ m ∧
      sectionPath (openedBy [] (B1.filterMap (sections[·]?))) t = sectionPath (openedBy [] (sections.take i)) t := by
    intro C hC
    rcases List.mem_append.1 hC with hC | hC
    · exact .inl (List.mem_singleton.1 hC)
    · obtain ⟨x, t, y, e1, rfl⟩ := (mem_doneBy _ _ _).1 hC
      obtain ⟨B1, i, B2, rfl, rfl, hi, rfl⟩ := filterMap_split e1
      have hpl := same_place hf hn hh he hperm hb (B := B1) (m := i) (A := B2 ++ m :: A) (by rw [hrs]; simp) hi
      refine .inr ⟨B1, i, B2, t, rfl, hi, by rw [hpl], ?_, hpl⟩
      rw [hrs] at hnd
      exact (List.nodup_append.1 hnd).2.2 i (by simp) m (by simp)
  have F := src m s hs
  have hroot : (([], kvs) : Path × List (AstKeyValue σ)) ∈ [([], kvs)] ++ doneBy [] (sections.take m) := by simp
  obtain ⟨header, hh1, hh2⟩ := F.header
  have hpk : pathKeys (sectionPath (openedBy [] (sections.take m)) s) = header := pathKeys_section _ hh1 hh2
  have hsub : ∀ y ∈ B.filterMap (sections[·]?), y ∈ sections := by
    intro y hy
    obtain ⟨i, _, hi⟩ := List.mem_filterMap.1 hy
    exact List.mem_of_getElem? hi
  have hopen : openedBy [] (B.filterMap (sections[·]?)) = (arrayNames (B.filterMap (sections[·]?))).map keyPath :=
    flat_opened (rest := []) (fun a ha b hb' => hf a (hsub a (by simpa using ha)) b (hsub b (by simpa using hb')))
      (fun a ha => hh a (hsub a (by simpa using ha)))
  -- two sections have different places
  have hdiff : ∀ i t, i ≠ m → sections[i]? = some t →
      sectionPath (openedBy [] (sections.take i)) t ≠ sectionPath (openedBy [] (sections.take m)) s := by
    intro i t hi ht heq
    have key : ∀ i j x y, i < j → sections[i]? = some x → sections[j]? = some y →
        sectionPath (openedBy [] (sections.take i)) x ≠ sectionPath (openedBy [] (sections.take j)) y := by
      intro i j x y hij hx hy heq
      cases ha : y.isArray with
      | false => exact (src j y hy).once ha _ (hmem i j x hij hx) heq
      | true =>
        have hsplit := pathAt_before hf hn hh hij ((List.getElem?_eq_some_iff.1 hy).1)
        obtain ⟨n, hn1, hn2⟩ := (src j y hy).header
        obtain ⟨k, hk⟩ := pathAt_array hf hn hh (n := n) (x := j) (by unfold isArrayAt; rw [hy]; simp [ha, hn1])
        refine hsplit.2 _ _ hk ?_
        rw [map_stepOf_inj ((pathAt_eq hf hn hh hx).trans (heq.trans (pathAt_eq hf hn hh hy).symm))]
        exact List.prefix_refl _
    rcases Nat.lt_or_gt_of_ne hi with h | h
    · exact key i m t s h ht hs heq
    · exact key m i s t h hs ht heq.symm
  refine ⟨F.header, F.kvs, ?_, ?_, ?_, ?_, ?_, ?_⟩
  · intro ha C hC
    rw [hplace]
    rcases hdone C hC with rfl | ⟨B1, i, B2, t, rfl, hi, rfl, hne, -⟩
    · exact F.once ha _ hroot
    · exact hdiff i t hne hi
  · intro ha
    rw [hplace, hopen, List.mem_map]
    rintro ⟨n, hn', e⟩
    have e' := congrArg pathKeys e
    rw [pathKeys_keyPath, hpk] at e'
    subst e'
    obtain ⟨t, ht, ha', hd⟩ := mem_arrayNames.1 hn'
    have := (hf t (hsub t ht) s (List.mem_of_getElem? hs) ha' n n hd hh1 (List.prefix_refl _)).2 rfl
    rw [ha] at this
    cases this
  · intro ha hno C hC hpre
    have hname : named (openedBy [] (B.filterMap (sections[·]?))) (s.header.getD []) = keyPath header := by
      rw [hnamed, hh1, Option.getD_some]
      have hf' := hf
      have hh' := hh
      rw [split_at hs] at hf' hh'
      rw [flat_opened hf' hh']
      exact flat_named hf' hh' (by simp) ha hh1
    rw [hname] at hno hpre
    rcases hdone C hC with rfl | ⟨B1, i, B2, t, rfl, hi, rfl, hne, hpl⟩
    · have := List.prefix_nil.1 hpre
      cases header with
      | nil => exact hh2 rfl
      | cons k ks => cases this
    · simp only at hpre
      obtain ⟨ht, ht1, ht2⟩ := (src i t hi).header
      have hpre' := pathKeys_prefix hpre
      rw [pathKeys_keyPath, pathKeys_section _ ht1 ht2] at hpre'
      obtain ⟨j, hj⟩ := pathAt_below hf hn hh he (x := m) (m := i) (n := header) (by unfold isArrayAt; rw [hs]; simp [ha, hh1]) hi ht1 hpre' hh2
      have hj' : keyPath header ++ [.index j] <+: sectionPath (openedBy [] (sections.take i)) t := by
        rw [← pathAt_eq hf hn hh hi]
        obtain ⟨r, hr⟩ := hj
        refine ⟨r.map stepOf, ?_⟩
        rw [← hr]
        simp [map_key_stepOf, stepOf, keyPath]
      rw [← hpl] at hj'
      have hle := openedBy_count_le (openedAfter (openedBy [] (B1.filterMap (sections[·]?))) t) (B2.filterMap (sections[·]?)) (keyPath header)
      have hz : (openedBy [] ((B1 ++ i :: B2).filterMap (sections[·]?))).count (keyPath header) = 0 := List.count_eq_zero.2 hno
      rw [List.filterMap_append, List.filterMap_cons_some (by exact hi), openedBy_append, openedBy] at hz
      rw [hz, openedAfter_count] at hle
      obtain ⟨k, ks, hkk⟩ : ∃ k ks, t.header = some (k :: ks) := hh t (List.mem_of_getElem? hi)
      rcases sectionPath_index ⟨k, ks, hkk⟩ hj' with e1 | ⟨-, e2⟩
      · omega
      · rw [if_pos e2] at hle; omega
  · intro C hC x hx
    rw [hplace]
    rcases hdone C hC with rfl | ⟨B1, i, B2, t, rfl, hi, rfl, hne, hpl⟩
    · exact F.noValue _ hroot x hx
    · rcases Nat.lt_or_gt_of_ne hne with h | h
      · exact F.noValue _ (hmem i m t h hi) x hx
      · intro hle
        unfold assignsOf at hx
        obtain ⟨kv, hkv, rfl⟩ := List.mem_map.1 hx
        cases hk : kv.1 with
        | nil =>
          have hvk := (src i t hi).kvs.1
          exact validKvs_key hvk hkv hk
        | cons k ks =>
          refine (src i t hi).keys _ (hmem m i s h hs) kv hkv k ks hk (List.IsPrefix.trans ?_ hle)
          simp only
          rw [hk]
          exact ⟨keyPath ks, by simp [keyPath]⟩
  · intro C hC
    rw [hnamed]
    rcases hdone C hC with rfl | ⟨B1, i, B2, t, rfl, hi, rfl, hne, hpl⟩
    · exact F.noDotted _ hroot
    · rcases Nat.lt_or_gt_of_ne hne with h | h
      · exact F.noDotted _ (hmem i m t h hi)
      · intro hd
        unfold dottedOf at hd
        obtain ⟨kv, hkv, hd⟩ := List.mem_flatMap.1 hd
        obtain ⟨j, hj, hd⟩ := List.mem_map.1 hd
        rw [List.mem_range] at hj
        cases hk : kv.1 with
        | nil => rw [hk] at hj; simp at hj
        | cons k ks =>
          refine (src i t hi).keys _ (hmem m i s h hs) kv hkv k ks hk (List.IsPrefix.trans ?_ (named_prefix (openedBy [] (sections.take m)) s))
          rw [← hd, hk, List.take_succ_cons]
          exact ⟨keyPath (ks.take j), by simp [keyPath]⟩
  · intro C hC x hx k ks hk
    rw [hplace]
    rcases hdone C hC with rfl | ⟨B1, i, B2, t, rfl, hi, rfl, hne, hpl⟩
    · intro h
      have := h.length_le
      simp at this
    · rcases Nat.lt_or_gt_of_ne hne with h | h
      · exact F.keys _ (hmem i m t h hi) x hx k ks hk
      · intro hle
        simp only at hle
        rw [hrs] at hp
        have hpi := (List.pairwise_append.1 hp).2.2 i (by simp) m (by simp)
        have h1 : sectionPath (openedBy [] (sections.take m)) s <+: sectionPath (openedBy [] (sections.take i)) t :=
          (List.prefix_append _ _).trans hle
        rw [← pathAt_eq hf hn hh hs, ← pathAt_eq hf hn hh hi] at h1
        rcases hpi (map_prefix_inj h1) with e | e
        · refine hdiff i t hne hi ?_
          rw [← pathAt_eq hf hn hh hs, ← pathAt_eq hf hn hh hi, e]
        · omega

end Tombi
