import Verif.Lemmas.TempFile
/-!
# C82: Temporary CSV files

`Sys.run (Sys.init files lanes) es = some s`: any history of all the workers on one file system that already has `files`: every interleaving, every choice of
random names, every failure of a file operation or of the DB, pipelines resumed any number of times, other programs creating files.
`Lane.created` are the files a worker has made (path and content), `loaded` the contents that `LOAD DATA` has read, `removed` the paths that were removed, each with
the number of the file that was meant.
-/
namespace Fpki.TempFile

/-! ## Specification -/

/-- The files of a worker that it has not removed. -/
def remaining (l : Lane) : List (Bytes × Bytes) :=
  (l.created.zipIdx.filter fun p => !(l.removed.map Prod.fst).contains p.2).map Prod.fst

/-- All three stages have ended. -/
def Lane.over (l : Lane) : Prop := l.maker = .ended ∧ l.loader = .ended ∧ l.remover = .ended

instance (l : Lane) : Decidable l.over := by unfold Lane.over; infer_instance

/-- An action that is not itself a failure of the environment. -/
def Act.regular : Act → Bool
  | .makeFail .. => false
  | .load fails => !fails
  | .rm fails => !fails
  | _ => true

def Act.isResume : Act → Bool
  | .resume _ => true
  | _ => false

/-! ## The right file -/

/-- C82: every `LOAD DATA` reads exactly the text of the file that it was to load, each file at most once and in the order of their creation; every removal
removes the path of the file that it was to remove, at most once. The shared storage of the names is never overwritten while a name is in use. -/
theorem C82_right_file {files : Disk} (hf : (files.map Prod.fst).Nodup) {lanes : List (Kind × List (List Bytes))} {es : List Ev} {s : Sys}
    (h : (Sys.init files lanes).run es = some s) {l : Lane} (hl : l ∈ s.lanes) :
    (∀ id c, (id, c) ∈ l.loaded → ∃ n, l.created[id]? = some (n, c)) ∧ (l.loaded.map Prod.fst).Pairwise (· < ·) ∧
    (∀ id n, (id, n) ∈ l.removed → ∃ c, l.created[id]? = some (n, c)) ∧ (l.removed.map Prod.fst).Pairwise (· < ·) := by
  have inv := inv_run (inv_init files hf lanes) h
  have ok := inv.ok l hl
  exact ⟨fun id c hm => ok.loaded _ hm, (List.pairwise_append.mp ok.idsL).1, fun id n hm => ok.removed _ hm, (List.pairwise_append.mp ok.idsR).1⟩

/-- C82: the files on disk are, at any time, those of other programs, unchanged, and those the workers have created and not removed; no two workers (nor a
worker and another program) ever have the same file. -/
theorem C82_file_system {files : Disk} (hf : (files.map Prod.fst).Nodup) {lanes : List (Kind × List (List Bytes))} {es : List Ev} {s : Sys}
    (h : (Sys.init files lanes).run es = some s) :
    s.disk.Perm (s.others ++ s.lanes.flatMap remaining) ∧ ((s.others ++ s.lanes.flatMap remaining).map Prod.fst).Nodup := by
  have inv := inv_run (inv_init files hf lanes) h
  exact ⟨inv.files, (inv.files.map Prod.fst).nodup_iff.mp inv.keys⟩

/-- C82: the names: the prefix of the table, ten characters of the alphabet, `.csv`. -/
theorem C82_names {files : Disk} (hf : (files.map Prod.fst).Nodup) {lanes : List (Kind × List (List Bytes))} {es : List Ev} {s : Sys}
    (h : (Sys.init files lanes).run es = some s) {l : Lane} (hl : l ∈ s.lanes) {n c : Bytes} (hc : (n, c) ∈ l.created) :
    ∃ pre ∈ l.kind.prefixes, ∃ r : Bytes, r.length = 10 ∧ (∀ b ∈ r, b ∈ charMap) ∧ n = pre ++ r ++ suffix := by
  obtain ⟨pre, hp, v, he⟩ := (inv_run (inv_init files hf lanes) h).ok l hl |>.made _ hc
  exact ⟨pre, hp, randomChars v, randomChars_length v, randomChars_mem v, he⟩

/-! ## Everything is loaded, and nothing is left -/

/-- C82 (partial: if nothing fails): when a worker has ended, the DB has got exactly the texts of all the batches that were given to it, in order, and none of its
files is left. Missing: after a failure files are left, see `C82_cleaned_violated`. -/
theorem C82_complete_partial {files : Disk} (hf : (files.map Prod.fst).Nodup) {lanes : List (Kind × List (List Bytes))} {es : List Ev} {s : Sys}
    (h : (Sys.init files lanes).run es = some s) {l : Lane} (hl : l ∈ s.lanes) (ho : l.over) (hok : l.failed = false) :
    l.loaded.map Prod.snd = l.given.flatten ∧ remaining l = [] := by
  have inv := inv_run (inv_init files hf lanes) h
  have ok := inv.ok l hl
  obtain ⟨c1, c2, c3, c4, c5, c6, c7, c8⟩ := inv.clean l hl hok
  obtain ⟨hm, hlo, hr⟩ := ho
  rw [hm] at c1 c2 c3
  rw [hlo] at c1 c2
  rw [hr] at c1
  simp only [Maker.toks, Maker.todo, Loader.toks, Loader.pend, Remover.toks, List.map_nil, List.append_nil, c6 hm, List.flatten_nil] at c1 c2 c3
  refine ⟨?_, ?_⟩
  · rw [← c3]
    apply List.ext_getElem?
    intro i
    have hlen : l.loaded.length = l.created.length := by
      have := congrArg List.length c2
      simpa using this
    by_cases hi : i < l.loaded.length
    · have h1 : (l.loaded.map Prod.fst)[i]? = some i := by rw [c2, List.getElem?_range (by omega)]
      simp only [List.getElem?_map, List.getElem?_eq_getElem hi, Option.map_some, Option.some.injEq] at h1
      obtain ⟨n, hn⟩ := ok.loaded l.loaded[i] (List.getElem_mem hi)
      rw [h1] at hn
      simp only [List.getElem?_map, List.getElem?_eq_getElem hi, hn, Option.map_some]
    · rw [List.getElem?_eq_none (by simp; omega), List.getElem?_eq_none (by simp; omega)]
  · unfold remaining
    rw [c1, List.map_eq_nil_iff, List.filter_eq_nil_iff]
    intro p hp
    have := List.snd_lt_of_mem_zipIdx hp
    simp; omega

/-- C82: while nothing fails a worker never has more files on disk than those of three batches. -/
theorem C82_bounded_partial {files : Disk} (hf : (files.map Prod.fst).Nodup) {lanes : List (Kind × List (List Bytes))} {es : List Ev} {s : Sys}
    (h : (Sys.init files lanes).run es = some s) {l : Lane} (hl : l ∈ s.lanes) (hok : l.failed = false) :
    (remaining l).length ≤ 3 * l.kind.prefixes.length := by
  have inv := inv_run (inv_init files hf lanes) h
  have ok := inv.ok l hl
  obtain ⟨c1, c2, c3, c4, c5, c6, c7, c8⟩ := inv.clean l hl hok
  have hmk : l.maker.toks.length ≤ l.kind.prefixes.length := by
    cases hm : l.maker with
    | idle => exact Nat.zero_le _
    | ended => exact Nat.zero_le _
    | making made todo => have := (ok.making _ _ hm).2; simp only [Maker.toks]; omega
    | sending ts => have := congrArg List.length (ok.sending _ hm); simp at this; simp [Maker.toks, this]
  have h1 : ∀ (ids rest : List Nat) (cr : List (Bytes × Bytes)), ids ++ rest = List.range cr.length →
      ((cr.zipIdx.filter fun p => !ids.contains p.2).map Prod.fst).length ≤ rest.length := by
    intro ids rest cr he
    rw [List.length_map]
    have hz : cr.zipIdx.map Prod.snd = List.range cr.length := by rw [List.zipIdx_map_snd, List.range_eq_range']
    have h2 : (cr.zipIdx.filter fun p => !ids.contains p.2).length = ((List.range cr.length).filter fun i => !ids.contains i).length := by
      rw [← hz, List.filter_map, List.length_map]
      rfl
    rw [h2, ← he, List.filter_append]
    have : ids.filter (fun i => !ids.contains i) = [] := by
      rw [List.filter_eq_nil_iff]; intro a ha; simp [ha]
    rw [this, List.nil_append]
    exact List.length_filter_le _ _
  have := h1 _ _ _ c1
  simp only [List.length_map, List.length_append] at this
  unfold remaining
  rw [List.length_map]
  omega

/-! ## When it fails -/

/-- C82: loading and removing find the file: in every reachable state they fail only if the DB or the file system reports an error. -/
theorem C82_file_is_there {files : Disk} (hf : (files.map Prod.fst).Nodup) {lanes : List (Kind × List (List Bytes))} {es : List Ev} {s : Sys}
    (h : (Sys.init files lanes).run es = some s) {l : Lane} (hl : l ∈ s.lanes) :
    (∀ done t todo, l.loader = .loading done (t :: todo) → ∃ c, s.disk.read (l.view t) = some c) ∧
    (∀ t todo bad, l.remover = .removing (t :: todo) bad → s.disk.exists (l.view t) = true) := by
  have inv := inv_run (inv_init files hf lanes) h
  have ok := inv.ok l hl
  refine ⟨?_, ?_⟩
  · intro done t todo hlo
    obtain ⟨_, c, _, hc⟩ := held_left ok (t := t) (by rw [hlo]; simp [Loader.toks])
    exact ⟨c, inv.reads hl _ hc⟩
  · intro t todo bad hr
    obtain ⟨_, c, _, hc⟩ := held_left ok (t := t) (by rw [hr]; simp [Remover.toks])
    rw [exists_iff]
    exact List.mem_map.mpr ⟨_, inv.files.mem_iff.mpr (List.mem_append_right _ (List.mem_flatMap.mpr ⟨l, hl, hc⟩)), rfl⟩

/-- C82: a regular action makes a worker fail only if it is the creation of a file and the names of ten attempts all exist. -/
theorem C82_fails_only {files : Disk} (hf : (files.map Prod.fst).Nodup) {lanes : List (Kind × List (List Bytes))} {es : List Ev} {s s' : Sys}
    (h : (Sys.init files lanes).run es = some s) {i : Nat} {a : Act} (ha : a.regular = true) (he : s.exec (.lane i a) = some s') {l l' : Lane}
    (hl : s.lanes[i]? = some l) (hl' : s'.lanes[i]? = some l') (hok : l.failed = false) (hbad : l'.failed = true) :
    ∃ v, a = .make v ∧ ∃ pre ∈ l.kind.prefixes, ∀ m < 10, s.disk.exists (pre ++ randomChars (v m) ++ suffix) = true := by
  have inv := inv_run (inv_init files hf lanes) h
  have hlm := List.mem_of_getElem? hl
  have ok := inv.ok l hlm
  obtain ⟨t1, t2⟩ := C82_file_is_there hf h hlm
  simp only [Sys.exec, hl] at he
  cases hr : l.exec s.disk a with
  | none => rw [hr] at he; cases he
  | some r =>
    rw [hr] at he
    simp only [Option.map_some, Option.some.injEq] at he
    subst he
    simp only [List.getElem?_set, if_true, Bridge.lt_of_get hl, Option.some.injEq] at hl'
    obtain ⟨l1, d1⟩ := r
    simp only at hl'
    subst hl'
    cases a with
    | make v =>
      refine ⟨v, rfl, ?_⟩
      simp only [Lane.exec] at hr
      split at hr
      case h_2 => cases hr
      rename_i made c0 todo hm
      split at hr
      · rename_i l2 t p hc
        cases hr
        have hs := createFile_same ok hc
        rw [hs] at hbad
        simp only at hbad
        rw [hok] at hbad; cases hbad
      · rename_i l2 hc
        unfold Lane.createFile at hc
        split at hc
        case h_2 => cases hc
        rename_i rg pre hrg hpre
        split at hc
        case h_2 => cases hc
        rename_i st hst
        simp only [Option.some.injEq, Prod.mk.injEq] at hc
        have hpm := List.mem_of_getElem? hpre
        obtain ⟨hp1, hp2⟩ := prefixes_ok l.kind pre hpm
        have hstl : st.length = 2048 := (ok.ring rg (List.mem_of_getElem? hrg)).2.2 st (List.mem_of_getElem? hst)
        obtain ⟨_, hcases⟩ := createTempFile_spec s.disk.exists st pre suffix hp2 suffix_ok v (by omega)
        refine ⟨pre, hpm, ?_⟩
        rcases hcases with ⟨m, _, h2, _⟩ | ⟨_, h3⟩
        · rw [h2] at hc; cases hc.2
        · exact h3
      · cases hr
    | makeFail v left => cases ha
    | load fails =>
      simp only [Act.regular, Bool.not_eq_true'] at ha
      subst ha
      simp only [Lane.exec] at hr
      split at hr
      case h_2 => cases hr
      rename_i done t todo hlo
      obtain ⟨c, hc⟩ := t1 _ _ _ hlo
      rw [hc] at hr
      cases hr
      simp only at hbad
      rw [hok] at hbad; cases hbad
    | rm fails =>
      simp only [Act.regular, Bool.not_eq_true'] at ha
      subst ha
      simp only [Lane.exec] at hr
      split at hr
      case h_2 => cases hr
      rename_i t todo bad hre
      rw [t2 _ _ _ hre] at hr
      cases hr
      simp only at hbad
      rw [hok] at hbad; cases hbad
    | take =>
      simp only [Lane.exec] at hr
      split at hr
      · split at hr
        · cases hr; simp only at hbad; rw [hok] at hbad; cases hbad
        · cases hr
      · cases hr
    | give =>
      simp only [Lane.exec] at hr
      split at hr
      · cases hr; simp only at hbad; rw [hok] at hbad; cases hbad
      · cases hr
    | pass =>
      simp only [Lane.exec] at hr
      split at hr
      · cases hr; simp only at hbad; rw [hok] at hbad; cases hbad
      · cases hr
    | endMaker =>
      simp only [Lane.exec] at hr
      split at hr
      · split at hr
        · cases hr; simp only at hbad; rw [hok] at hbad; cases hbad
        · cases hr
      · split at hr
        · cases hr; simp only at hbad; rw [hok] at hbad; cases hbad
        · cases hr
      · cases hr
    | endLoader =>
      simp only [Lane.exec] at hr
      split at hr
      · split at hr
        · cases hr; simp only at hbad; rw [hok] at hbad; cases hbad
        · cases hr
      · split at hr
        · cases hr; simp only at hbad; rw [hok] at hbad; cases hbad
        · cases hr
      · cases hr
    | endRemover =>
      simp only [Lane.exec] at hr
      split at hr
      · split at hr
        · cases hr; simp only at hbad; rw [hok] at hbad; cases hbad
        · cases hr
      · cases hr
    | resume input =>
      simp only [Lane.exec] at hr
      split at hr
      · cases hr; simp only at hbad; rw [hok] at hbad; cases hbad
      · cases hr

/-! ## It ends -/

def Maker.weight : Maker → Nat
  | .idle => 1
  | .making made todo => 3 + todo.length + 2 * (made.length + todo.length)
  | .sending ts => 3 + 2 * ts.length
  | .ended => 0

def Loader.weight : Loader → Nat
  | .idle => 1
  | .loading done todo => 2 + todo.length + (done.length + todo.length)
  | .sending ts => 2 + ts.length
  | .ended => 0

def Remover.weight : Remover → Nat
  | .idle => 1
  | .removing todo _ => 1 + todo.length
  | .ended => 0

/-- The steps a worker can still make. -/
def Lane.weight (l : Lane) : Nat :=
  l.input.length * (3 * l.kind.prefixes.length + 4) + l.maker.weight + l.loader.weight + l.remover.weight

theorem exec_weight {l l' : Lane} {d d' : Disk} {a : Act} (hr : a.isResume = false) (ok : Ok l) (he : l.exec d a = some (l', d')) : l'.weight < l.weight := by
  cases a with
  | take =>
    simp only [Lane.exec] at he
    split at he
    case h_2 => cases he
    rename_i b rest hm hi
    split at he
    case isFalse => cases he
    rename_i hb
    cases he
    simp only [Lane.weight, hm, hi, Maker.weight, List.length_cons, List.length_nil, Nat.add_mul, hb]
    omega
  | make v =>
    simp only [Lane.exec] at he
    split at he
    case h_2 => cases he
    rename_i made c0 todo hm
    split at he
    · rename_i l1 t p hc
      cases he
      have hs := createFile_same ok hc
      generalize hrs : l1.rings = rs at hs
      subst hs
      have : (afterMake (made ++ [t]) todo).weight < l.maker.weight := by
        rw [hm]
        unfold afterMake
        split
        · simp [Maker.weight]; omega
        · simp [Maker.weight]; omega
      simp only [Lane.weight]
      omega
    · rename_i l1 hc
      cases he
      have hs := createFile_same ok hc
      generalize hrs : l1.rings = rs at hs
      subst hs
      simp only [Lane.weight, hm, Maker.weight]; omega
    · cases he
  | makeFail v left =>
    simp only [Lane.exec] at he
    split at he
    case h_2 => cases he
    rename_i made c0 todo hm
    split at he
    · rename_i l1 t p n hc
      cases he
      have hs := createFile_same ok hc
      generalize hrs : l1.rings = rs at hs
      subst hs
      simp only [Lane.weight, hm, Maker.weight]; omega
    · rename_i hc _
      cases he
      have hs := createFile_same ok hc
      rw [hs]
      simp only [Lane.weight, hm, Maker.weight]; omega
    · cases he
  | give =>
    simp only [Lane.exec] at he
    split at he
    case h_2 => cases he
    rename_i ts hm hl
    cases he
    have : (afterLoad [] ts).weight ≤ 2 + 2 * ts.length := by unfold afterLoad; split <;> simp [Loader.weight] <;> omega
    simp only [Lane.weight, hm, hl, Maker.weight, Loader.weight] at this ⊢; omega
  | load fails =>
    simp only [Lane.exec] at he
    split at he
    case h_2 => cases he
    rename_i done t todo hl
    have : (afterLoad (done ++ [t]) todo).weight < l.loader.weight := by
      rw [hl]; unfold afterLoad; split <;> simp [Loader.weight] <;> omega
    split at he
    · cases he
      simp only [Lane.weight]; omega
    · cases he
      simp only [Lane.weight, hl, Loader.weight]; omega
  | pass =>
    simp only [Lane.exec] at he
    split at he
    case h_2 => cases he
    rename_i ts hl hr
    cases he
    have : (afterRemove ts false).weight ≤ 1 + ts.length := by unfold afterRemove; split <;> simp [Remover.weight]
    simp only [Lane.weight, hl, hr, Loader.weight, Remover.weight] at this ⊢; omega
  | rm fails =>
    simp only [Lane.exec] at he
    split at he
    case h_2 => cases he
    rename_i t todo bad hr
    have : ∀ b, (afterRemove todo b).weight < l.remover.weight := by
      intro b
      rw [hr]; unfold afterRemove; split
      · split <;> simp [Remover.weight] <;> omega
      · simp [Remover.weight]
    split at he
    · cases he
      have := this bad
      simp only [Lane.weight]; omega
    · cases he
      have := this true
      simp only [Lane.weight]; omega
  | endMaker =>
    simp only [Lane.exec] at he
    split at he
    · rename_i hm
      split at he
      · cases he; simp only [Lane.weight, hm, Maker.weight]; omega
      · cases he
    · rename_i hm
      split at he
      · cases he; simp only [Lane.weight, hm, Maker.weight]; omega
      · cases he
    · cases he
  | endLoader =>
    simp only [Lane.exec] at he
    split at he
    · rename_i hm
      split at he
      · cases he; simp only [Lane.weight, hm, Loader.weight]; omega
      · cases he
    · rename_i hm
      split at he
      · cases he; simp only [Lane.weight, hm, Loader.weight]; omega
      · cases he
    · cases he
  | endRemover =>
    simp only [Lane.exec] at he
    split at he
    · rename_i hm
      split at he
      · cases he; simp only [Lane.weight, hm, Remover.weight]; omega
      · cases he
    · cases he
  | resume input => cases hr

/-- C82: every action of a worker but resuming it brings it nearer to its end: there is no infinite execution, whatever fails. -/
theorem C82_ends {files : Disk} (hf : (files.map Prod.fst).Nodup) {lanes : List (Kind × List (List Bytes))} {es : List Ev} {s s' : Sys}
    (h : (Sys.init files lanes).run es = some s) {i : Nat} {a : Act} (ha : a.isResume = false) (he : s.exec (.lane i a) = some s') {l l' : Lane}
    (hl : s.lanes[i]? = some l) (hl' : s'.lanes[i]? = some l') : l'.weight < l.weight := by
  have inv := inv_run (inv_init files hf lanes) h
  simp only [Sys.exec, hl] at he
  cases hr : l.exec s.disk a with
  | none => rw [hr] at he; cases he
  | some r =>
    rw [hr] at he
    simp only [Option.map_some, Option.some.injEq] at he
    subst he
    simp only [List.getElem?_set, if_true, Bridge.lt_of_get hl, Option.some.injEq] at hl'
    subst hl'
    exact exec_weight ha (inv.ok l (List.mem_of_getElem? hl)) hr

/-- The batches that are still to come have a text for each file. -/
def shaped (l : Lane) : Prop := ∀ b ∈ l.input, b.length = l.kind.prefixes.length

/-- No stage holds an empty rest. -/
structure Full (l : Lane) : Prop where
  maker : ∀ made, l.maker ≠ .making made []
  loader : ∀ done, l.loader ≠ .loading done []
  remover : ∀ bad, l.remover ≠ .removing [] bad

theorem afterMake_full (made made' : List Tok) (todo : List Bytes) : afterMake made todo ≠ .making made' [] := by
  unfold afterMake
  split
  · simp
  · rename_i h; intro e; cases e; simp at h

theorem afterLoad_full (done done' todo : List Tok) : afterLoad done todo ≠ .loading done' [] := by
  unfold afterLoad
  split
  · simp
  · rename_i h; intro e; cases e; simp at h

theorem afterRemove_full (todo : List Tok) (b bad : Bool) : afterRemove todo b ≠ .removing [] bad := by
  unfold afterRemove
  split
  · split <;> simp
  · rename_i h; intro e; cases e; simp at h

theorem full_step {l l' : Lane} {d d' : Disk} {a : Act} (ok : Ok l) (h : Full l) (he : l.exec d a = some (l', d')) : Full l' := by
  obtain ⟨h1, h2, h3⟩ := h
  cases a with
  | take =>
    simp only [Lane.exec] at he
    split at he
    case h_2 => cases he
    split at he
    case isFalse => cases he
    rename_i b rest hm hi hb
    cases he
    refine ⟨?_, h2, h3⟩
    intro made e
    cases e
    cases hk : l.kind <;> simp [hk, Kind.prefixes] at hb
  | make v =>
    simp only [Lane.exec] at he
    split at he
    case h_2 => cases he
    split at he
    · rename_i hc
      cases he
      have hs := createFile_same ok hc
      refine ⟨fun made => afterMake_full _ _ _, ?_, ?_⟩
      · rw [hs]; exact h2
      · rw [hs]; exact h3
    · rename_i hc
      cases he
      have hs := createFile_same ok hc
      refine ⟨(by intro _ e; cases e), ?_, ?_⟩
      · rw [hs]; exact h2
      · rw [hs]; exact h3
    · cases he
  | makeFail v left =>
    simp only [Lane.exec] at he
    split at he
    case h_2 => cases he
    split at he
    · rename_i hc
      cases he
      have hs := createFile_same ok hc
      refine ⟨(by intro _ e; cases e), ?_, ?_⟩
      · rw [hs]; exact h2
      · rw [hs]; exact h3
    · rename_i hc _
      cases he
      have hs := createFile_same ok hc
      refine ⟨(by intro _ e; cases e), ?_, ?_⟩
      · rw [hs]; exact h2
      · rw [hs]; exact h3
    · cases he
  | give =>
    simp only [Lane.exec] at he
    split at he
    case h_2 => cases he
    cases he
    exact ⟨(by intro _ e; cases e), fun done => afterLoad_full _ _ _, h3⟩
  | load fails =>
    simp only [Lane.exec] at he
    split at he
    case h_2 => cases he
    split at he
    · cases he
      exact ⟨h1, fun done => afterLoad_full _ _ _, h3⟩
    · cases he
      exact ⟨h1, (by intro _ e; cases e), h3⟩
  | pass =>
    simp only [Lane.exec] at he
    split at he
    case h_2 => cases he
    cases he
    exact ⟨h1, (by intro _ e; cases e), fun bad => afterRemove_full _ _ _⟩
  | rm fails =>
    simp only [Lane.exec] at he
    split at he
    case h_2 => cases he
    split at he
    · cases he
      exact ⟨h1, h2, fun bad => afterRemove_full _ _ _⟩
    · cases he
      exact ⟨h1, h2, fun bad => afterRemove_full _ _ _⟩
  | endMaker =>
    simp only [Lane.exec] at he
    split at he
    · split at he
      · cases he; exact ⟨(by intro _ e; cases e), h2, h3⟩
      · cases he
    · split at he
      · cases he; exact ⟨(by intro _ e; cases e), h2, h3⟩
      · cases he
    · cases he
  | endLoader =>
    simp only [Lane.exec] at he
    split at he
    · split at he
      · cases he; exact ⟨h1, (by intro _ e; cases e), h3⟩
      · cases he
    · split at he
      · cases he; exact ⟨h1, (by intro _ e; cases e), h3⟩
      · cases he
    · cases he
  | endRemover =>
    simp only [Lane.exec] at he
    split at he
    · split at he
      · cases he; exact ⟨h1, h2, (by intro _ e; cases e)⟩
      · cases he
    · cases he
  | resume input =>
    simp only [Lane.exec] at he
    split at he
    · cases he; exact ⟨(by intro _ e; cases e), (by intro _ e; cases e), (by intro _ e; cases e)⟩
    · cases he

theorem full_run {s s' : Sys} {es : List Ev} (inv : Inv s) (h : ∀ l ∈ s.lanes, Full l) (he : s.run es = some s') : ∀ l ∈ s'.lanes, Full l := by
  induction es generalizing s with
  | nil => cases he; exact h
  | cons e es ih =>
    simp only [Sys.run, Option.bind_eq_some_iff] at he
    obtain ⟨s1, h1, h2⟩ := he
    refine ih (inv_step inv h1) ?_ h2
    cases e with
    | other p c =>
      simp only [Sys.exec] at h1
      split at h1
      · cases h1
      · cases h1; exact h
    | lane i a =>
      simp only [Sys.exec] at h1
      split at h1
      case h_2 => cases h1
      rename_i l hl
      cases hr : l.exec s.disk a with
      | none => rw [hr] at h1; cases h1
      | some r =>
        rw [hr] at h1
        simp only [Option.map_some, Option.some.injEq] at h1
        subst h1
        have hlm := List.mem_of_getElem? hl
        intro q hq
        rcases List.mem_or_eq_of_mem_set hq with hq | hq
        · exact h q hq
        · rw [hq]; exact full_step (inv.ok l hlm) (h l hlm) hr

theorem maker_step {l : Lane} (d : Disk) (ok : Ok l) (full : Full l) (hsh : shaped l) (hm : l.maker ≠ .ended) (hl : l.loader = .idle ∨ l.loader = .ended)
    (v : Nat → Nat → Nat) : ∃ a, a ∈ [Act.take, .make v, .give, .endMaker] ∧ (l.exec d a).isSome = true := by
  cases hmk : l.maker with
  | ended => exact absurd hmk hm
  | idle =>
    cases hi : l.input with
    | nil => exact ⟨.endMaker, by simp, by simp [Lane.exec, hmk, hi]⟩
    | cons b rest =>
      have hb : b.length = l.kind.prefixes.length := hsh b (by rw [hi]; exact List.mem_cons_self ..)
      exact ⟨.take, by simp, by simp [Lane.exec, hmk, hi, hb]⟩
  | sending ts =>
    rcases hl with hl | hl
    · exact ⟨.give, by simp, by simp [Lane.exec, hmk, hl]⟩
    · exact ⟨.endMaker, by simp, by simp [Lane.exec, hmk, hl]⟩
  | making made todo =>
    cases todo with
    | nil => exact absurd hmk (full.maker made)
    | cons c todo =>
      refine ⟨.make v, by simp, ?_⟩
      have hlt : made.length < l.kind.prefixes.length := by have := (ok.making _ _ hmk).2; simp at this; omega
      have hlr : made.length < l.rings.length := by rw [ok.rings]; exact hlt
      obtain ⟨hc, hs, _⟩ := ok.ring l.rings[made.length] (List.getElem_mem hlr)
      have hcs : l.rings[made.length].cur < l.rings[made.length].slots.length := by omega
      simp only [Lane.exec, hmk]
      have : (l.createFile d made.length v).isSome = true := by
        simp only [Lane.createFile, List.getElem?_eq_getElem hlr, List.getElem?_eq_getElem hlt, List.getElem?_eq_getElem hcs, Option.isSome_some]
      split
      · rfl
      · rfl
      · rename_i h; rw [h] at this; cases this

/-- C82: a worker whose stages have not all ended can always make a step that is not a failure: the stages do not block each other. -/
theorem C82_progress {files : Disk} (hf : (files.map Prod.fst).Nodup) {lanes : List (Kind × List (List Bytes))} {es : List Ev} {s : Sys}
    (h : (Sys.init files lanes).run es = some s) {i : Nat} {l : Lane} (hl : s.lanes[i]? = some l) (hsh : shaped l) (hn : ¬ l.over) (v : Nat → Nat → Nat) :
    ∃ a, a ∈ [.take, .make v, .give, .load false, .pass, .rm false, .endMaker, .endLoader, .endRemover] ∧ (s.exec (.lane i a)).isSome = true := by
  have inv0 := inv_init files hf lanes
  have inv := inv_run inv0 h
  have hlm := List.mem_of_getElem? hl
  have ok := inv.ok l hlm
  have full : Full l := full_run inv0 (by
    intro q hq
    simp only [Sys.init, List.mem_map] at hq
    obtain ⟨p, _, rfl⟩ := hq
    exact ⟨(by intro _ e; cases e), (by intro _ e; cases e), (by intro _ e; cases e)⟩) h l hlm
  suffices hs : ∃ a, a ∈ [Act.take, .make v, .give, .load false, .pass, .rm false, .endMaker, .endLoader, .endRemover] ∧
      (l.exec s.disk a).isSome = true by
    obtain ⟨a, ha, he⟩ := hs
    refine ⟨a, ha, ?_⟩
    simp only [Sys.exec, hl, Option.isSome_map]
    exact he
  have mstep : l.maker ≠ .ended → (l.loader = .idle ∨ l.loader = .ended) →
      ∃ a, a ∈ [Act.take, .make v, .give, .load false, .pass, .rm false, .endMaker, .endLoader, .endRemover] ∧ (l.exec s.disk a).isSome = true := by
    intro h1 h2
    obtain ⟨a, ha, he⟩ := maker_step s.disk ok full hsh h1 h2 v
    refine ⟨a, ?_, he⟩
    simp only [List.mem_cons, List.not_mem_nil, or_false] at ha ⊢
    rcases ha with ha | ha | ha | ha <;> simp [ha]
  cases hlo : l.loader with
  | loading done todo =>
    cases todo with
    | cons t todo =>
      refine ⟨.load false, by simp, ?_⟩
      simp only [Lane.exec, hlo]
      split <;> rfl
    | nil => exact absurd hlo (full.loader done)
  | idle =>
    by_cases hm : l.maker = .ended
    · exact ⟨.endLoader, by simp, by simp [Lane.exec, hlo, hm]⟩
    · exact mstep hm (.inl hlo)
  | sending ts =>
    cases hre : l.remover with
    | idle => exact ⟨.pass, by simp, by simp [Lane.exec, hlo, hre]⟩
    | ended => exact ⟨.endLoader, by simp, by simp [Lane.exec, hlo, hre]⟩
    | removing todo bad =>
      cases todo with
      | cons t todo =>
        refine ⟨.rm false, by simp, ?_⟩
        simp only [Lane.exec, hre]
        split <;> rfl
      | nil => exact absurd hre (full.remover bad)
  | ended =>
    by_cases hm : l.maker = .ended
    · cases hre : l.remover with
      | idle => exact ⟨.endRemover, by simp, by simp [Lane.exec, hlo, hre]⟩
      | ended => exact absurd ⟨hm, hlo, hre⟩ hn
      | removing todo bad =>
        cases todo with
        | cons t todo =>
          refine ⟨.rm false, by simp, ?_⟩
          simp only [Lane.exec, hre]
          split <;> rfl
        | nil => exact absurd hre (full.remover bad)
    · exact mstep hm (.inr hlo)

/-! ## CreateTempFile -/

/-- C82: `CreateTempFile` on any storage that is long enough, whatever it holds: it creates the first of ten random names that does not exist; the path the kernel
sees is the name that is returned; if all ten exist it creates nothing. -/
theorem C82_create_temp_file (ex : Bytes → Bool) (storage pre suf : Bytes) (hp : 0 ∉ pre) (hs : 0 ∉ suf) (v : Nat → Nat → Nat)
    (h : pre.length + 10 + suf.length < storage.length) :
    let name := fun m => pre ++ randomChars (v m) ++ suf
    let r := createTempFile ex storage pre suf v
    (∀ m < 10, ex (name m) = false → (∀ m' < m, ex (name m') = true) →
      r.2 = some (name m) ∧ r.1.take (pre.length + 10 + suf.length) = name m) ∧
    ((∀ m < 10, ex (name m) = true) → r.2 = none) := by
  have hp' : ∀ c ∈ pre, c ≠ 0 := by intro c hc e; subst e; exact hp hc
  have hs' : ∀ c ∈ suf, c ≠ 0 := by intro c hc e; subst e; exact hs hc
  obtain ⟨_, hc⟩ := createTempFile_spec ex storage pre suf hp' hs' v h
  refine ⟨?_, ?_⟩
  · intro m hm he hbefore
    rcases hc with ⟨n, hn, h1, h2, h3, h4⟩ | ⟨_, h2⟩
    · have : n = m := by
        rcases Nat.lt_trichotomy n m with h | h | h
        · have := hbefore n h; simp only at this; rw [h3] at this; cases this
        · exact h
        · have := h4 m h; simp only at he; rw [he] at this; cases this
      subst this
      exact ⟨h1, h2⟩
    · have := h2 m hm; simp only at he; rw [he] at this; cases this
  · intro hall
    rcases hc with ⟨n, hn, h1, h2, h3, h4⟩ | ⟨h1, _⟩
    · have := hall n hn; simp only at this; rw [h3] at this; cases this
    · exact h1

/-! ## Witnesses -/

def vals (n : Nat) : Nat → Nat → Nat := fun a _ => n + a

/-- Two workers, one of each kind, do all their work; the first two names that the second worker tries for its first file exist. -/
def fine : List Ev :=
  [.lane 0 .take, .lane 1 .take, .lane 0 (.make (vals 0)), .lane 1 (.make (vals 5)), .lane 0 .give, .lane 1 (.make (vals 5)), .lane 0 .take,
   .other [1] [2], .lane 0 (.load false), .lane 1 (.make (vals 5)), .lane 0 (.make (vals 0)), .lane 0 .pass, .lane 1 .give, .lane 0 .give, .lane 0 (.rm false),
   .lane 0 (.load false), .lane 1 (.load false), .lane 1 (.load false), .lane 1 (.load false), .lane 0 .endMaker, .lane 0 .pass, .lane 0 .endLoader,
   .lane 1 .pass, .lane 1 (.rm false), .lane 1 (.rm false), .lane 0 (.rm false), .lane 1 (.rm false), .lane 0 .endRemover,
   .lane 1 .endMaker, .lane 1 .endLoader, .lane 1 .endRemover]

def dirty5 : Bytes := temporaryDir ++ Domain.asc "fpki-ingest-dirty-" ++ randomChars (vals 5 0) ++ suffix

def jobs : List (Kind × List (List Bytes)) := [(.certs, [[[1]], [[2]]]), (.domains, [[[3], [4], [5]]])]

/-- The hypotheses of the theorems of this file are met by a history in which names collide, names are in flight in all stages, and everything is loaded. -/
example : ((dirty5, [9]) :: [] |>.map Prod.fst).Nodup ∧
    (match (Sys.init [(dirty5, [9])] jobs).run fine with
     | some s => decide (∀ l ∈ s.lanes, l.over ∧ l.failed = false) && decide (s.disk = [([1], [2]), (dirty5, [9])]) &&
        decide (s.lanes.map (·.loaded) = [[(0, [1]), (1, [2])], [(0, [3]), (1, [4]), (2, [5])]]) && decide ((s.lanes.map (·.removed.length)) = [2, 3])
     | none => false) = true := by decide +kernel

/-- A history with a failure of the DB. -/
def dbError : List Ev :=
  [.lane 0 .take, .lane 0 (.make (vals 0)), .lane 0 .give, .lane 0 .take, .lane 0 (.load true), .lane 0 (.make (vals 1)), .lane 0 .endMaker,
   .lane 0 .endRemover]

/-- C82 is violated: after an error of the DB all stages have ended, and the files of the batch and of the next one are left, for ever: no stage has their names. -/
theorem C82_cleaned_violated : ∃ (es : List Ev) (s : Sys), (Sys.init [] [(.certs, [[[1]], [[2]]])]).run es = some s ∧
    (∀ l ∈ s.lanes, l.over) ∧ s.others = [] ∧ s.disk.length = 2 := by
  have h : (match (Sys.init [] [(.certs, [[[1]], [[2]]])]).run dbError with
     | some s => decide (∀ l ∈ s.lanes, l.over) && s.others.isEmpty && decide (s.disk.length = 2)
     | none => false) = true := by decide +kernel
  split at h
  · rename_i s hs
    simp only [Bool.and_eq_true, decide_eq_true_eq, List.isEmpty_iff] at h
    exact ⟨dbError, s, hs, h.1.1, h.1.2, h.2⟩
  · cases h

/-- C82 is violated also if a write fails, e.g. because the disk is full: the file and what was written stay. -/
theorem C82_write_error_violated : ∃ (es : List Ev) (s : Sys), (Sys.init [] [(.certs, [[[1, 2, 3]]])]).run es = some s ∧
    (∀ l ∈ s.lanes, l.over) ∧ s.others = [] ∧ s.disk.map Prod.snd = [[1]] := by
  have h : (match (Sys.init [] [(.certs, [[[1, 2, 3]]])]).run [.lane 0 .take, .lane 0 (.makeFail (vals 0) (some 1)), .lane 0 .endLoader, .lane 0 .endRemover] with
     | some s => decide (∀ l ∈ s.lanes, l.over) && s.others.isEmpty && decide (s.disk.map Prod.snd = [[1]])
     | none => false) = true := by decide +kernel
  split at h
  · rename_i s hs
    simp only [Bool.and_eq_true, decide_eq_true_eq, List.isEmpty_iff] at h
    exact ⟨_, s, hs, h.1.1, h.1.2, h.2⟩
  · cases h

/-- `C82_create_temp_file`: its hypotheses are met by the storage and the names of the code. -/
example : ∀ k : Kind, ∀ pre ∈ k.prefixes, 0 ∉ pre ∧ 0 ∉ suffix ∧ pre.length + 10 + suffix.length < filepathLen := by
  intro k; cases k <;> decide +kernel

end Fpki.TempFile
