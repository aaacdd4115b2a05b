import Verif.Model.Ingest
import Verif.Lemmas.Journal

namespace Fpki.Ingest
open Fpki.Journal

/-! ## Specification vocabulary -/

/-- In history `h`, a batch of a directory with base name `k` ran successfully and contained a file
whose name gives a range with index `n`. -/
def Processed (h : List Ev) (k : Str) (n : Nat) : Prop :=
  ∃ dir files f x, Ev.batchOk dir files ∈ h ∧ pathBase dir = k ∧ f ∈ files ∧
    parseFileInterval f = some x ∧ x.Has n

/-- `Processed`, and later in the history the event `ev` happened. -/
def ProcessedThen (ev : Ev) (h : List Ev) (k : Str) (n : Nat) : Prop :=
  ∃ pre post, h = pre ++ post ∧ Processed pre k n ∧ ev ∈ post

/-- The completed indices of the last job of the journal. -/
def latest (jobs : List Job) : Completed := (newJob jobs).completed

/-! ## Lemmas -/

theorem Processed.mono {h h' : List Ev} {k : Str} {n : Nat} (H : Processed h k n)
    (hs : ∀ e ∈ h, e ∈ h') : Processed h' k n := by
  obtain ⟨dir, files, f, x, h1, h2⟩ := H
  exact ⟨dir, files, f, x, hs _ h1, h2⟩

theorem ProcessedThen.append {ev : Ev} {h : List Ev} {k : Str} {n : Nat} (H : ProcessedThen ev h k n)
    (t : List Ev) : ProcessedThen ev (h ++ t) k n := by
  obtain ⟨pre, post, rfl, h1, h2⟩ := H
  exact ⟨pre, post ++ t, by simp, h1, by simp [h2]⟩

theorem Processed.append {h : List Ev} {k : Str} {n : Nat} (H : Processed h k n)
    (t : List Ev) : Processed (h ++ t) k n := H.mono (by simp +contextual)

theorem lookup_store_same (c : Completed) (k : Str) (l : List Interval) :
    lookup (store c k l) k = l := by simp [lookup, store]

theorem lookup_store_ne (c : Completed) (k k' : Str) (l : List Interval) (h : k ≠ k') :
    lookup (store c k l) k' = lookup c k' := by
  have hb : (k == k') = false := by simp [h]
  simp only [lookup, store, List.find?_cons, hb]
  congr 2
  induction c with
  | nil => rfl
  | cons p c ih =>
    simp only [List.filter_cons]
    by_cases hp : p.1 = k
    · have : (p.1 == k') = false := by simp [hp, h]
      simp [hp, List.find?_cons, ih, h]
    · have h1 : (p.1 != k) = true := by simp [hp]
      simp only [h1, if_true, List.find?_cons, ih]

/-- Stored intervals are valid. -/
def ValidC (c : Completed) : Prop := ∀ k, ∀ x ∈ lookup c k, x.Valid

theorem isDig_toNat {c : Char} (h : isDig c = true) : 48 ≤ c.toNat ∧ c.toNat ≤ 57 := by
  simpa [isDig] using h

theorem parseIntervalString_valid {s : Str} {x : Interval} (h : parseIntervalString s = some x) :
    x.Valid := by
  unfold parseIntervalString at h
  split at h
  · split at h
    · simp at h
    · split at h
      · next a b ha hb =>
        simp only [parseUint] at ha hb
        split at h
        · simp at h
        · split at ha <;> split at hb <;> simp_all [Interval.Valid]
          subst h; simp; omega
      · simp at h
  · simp at h

theorem parseFileInterval_valid {f : Str} {x : Interval} (h : parseFileInterval f = some x) :
    x.Valid := parseIntervalString_valid h

theorem addCompleted_valid {c : Completed} (hc : ValidC c) (k : Str) {x : Interval} (hx : x.Valid) :
    ValidC (addCompleted c k x) := by
  intro k' y hy
  unfold addCompleted at hy
  by_cases hk : k = k'
  · subst hk
    rw [lookup_store_same] at hy
    exact appendInterval_valid _ _ hx (hc k) y hy
  · rw [lookup_store_ne _ _ _ _ hk] at hy
    exact hc k' y hy

theorem addCompleted_covered {c : Completed} (hc : ValidC c) (k : Str) {x : Interval} (hx : x.Valid)
    (k' : Str) (n : Nat) :
    Covered (lookup (addCompleted c k x) k') n ↔ Covered (lookup c k') n ∨ (k = k' ∧ x.Has n) := by
  unfold addCompleted
  by_cases hk : k = k'
  · subst hk
    rw [lookup_store_same, appendInterval_covered _ _ hx (hc k)]
    simp
  · rw [lookup_store_ne _ _ _ _ hk]
    simp [hk]

/-- Effect of the file loop of `CommitProgress` on coverage. -/
theorem addFiles_spec (key : Str) (fs : List Str) (c : Completed) (hc : ValidC c)
    (hp : ∀ f ∈ fs, (parseFileInterval f).isSome) :
    (addFiles key c fs).2 = true ∧ ValidC (addFiles key c fs).1 ∧
    ∀ k n, Covered (lookup (addFiles key c fs).1 k) n ↔
      Covered (lookup c k) n ∨ (key = k ∧ ∃ f ∈ fs, ∃ x, parseFileInterval f = some x ∧ x.Has n) := by
  induction fs generalizing c with
  | nil => simp [addFiles, hc]
  | cons f fs ih =>
    have hf := hp f (by simp)
    rw [Option.isSome_iff_exists] at hf
    obtain ⟨x, hx⟩ := hf
    have hv := parseFileInterval_valid hx
    simp only [addFiles, hx]
    have := ih (addCompleted c key x) (addCompleted_valid hc key hv) (fun g hg => hp g (by simp [hg]))
    refine ⟨this.1, this.2.1, ?_⟩
    intro k n
    rw [this.2.2, addCompleted_covered hc key hv]
    constructor
    · rintro ((h | ⟨h1, h2⟩) | ⟨h1, g, hg, h2⟩)
      · exact Or.inl h
      · exact Or.inr ⟨h1, f, by simp, x, hx, h2⟩
      · exact Or.inr ⟨h1, g, by simp [hg], h2⟩
    · rintro (h | ⟨h1, g, hg, y, hy, h2⟩)
      · exact Or.inl (Or.inl h)
      · rcases List.mem_cons.1 hg with rfl | hg
        · rw [hx] at hy; cases hy
          exact Or.inl (Or.inr ⟨h1, h2⟩)
        · exact Or.inr ⟨h1, g, hg, y, hy, h2⟩

theorem pendingFiles_spec (key : Str) (c : Completed) (l r : List Str)
    (h : pendingFiles key c l = some r) :
    (∀ f ∈ l, (parseFileInterval f).isSome) ∧
    r = l.filter (fun f => match parseFileInterval f with
      | some x => !containsInterval (lookup c key) x | none => false) := by
  induction l generalizing r with
  | nil => simp_all [pendingFiles]
  | cons f fs ih =>
    simp only [pendingFiles] at h
    split at h
    · next x r' hx hr' =>
      obtain ⟨h1, h2⟩ := ih _ hr'
      refine ⟨?_, ?_⟩
      · intro g hg
        rcases List.mem_cons.1 hg with rfl | hg
        · simp [hx]
        · exact h1 g hg
      · simp only [List.filter_cons, hx]
        split at h <;> simp_all
    · simp at h

theorem normalizeCompleted_spec (c r : Completed) (hc : ∀ p ∈ c, ∀ x ∈ p.2, x.stop < W)
    (h : normalizeCompleted c = some r) :
    ValidC r ∧ ∀ k n, Covered (lookup r k) n ↔ Covered (lookup c k) n := by
  induction c generalizing r with
  | nil =>
    simp only [normalizeCompleted, Option.some.injEq] at h
    subst h
    exact ⟨by intro k x hx; simp [lookup] at hx, by simp⟩
  | cons p c ih =>
    obtain ⟨k0, l⟩ := p
    simp only [normalizeCompleted] at h
    split at h
    · simp at h
    · split at h
      · next l' r' hl' hr' =>
        simp only [Option.some.injEq] at h
        subst h
        obtain ⟨ih1, ih2⟩ := ih _ (fun p hp => hc p (by simp [hp])) hr'
        obtain ⟨_, hv, hcov⟩ := normalizeList_spec [] l l' (by simp) (hc (k0, l) (by simp)) hl'
        have hsame : ∀ (c : Completed) (l : List Interval) k, lookup ((k0, l) :: c) k =
            if k0 = k then l else lookup c k := by
          intro c l k
          by_cases hk : k0 = k
          · simp [lookup, hk]
          · simp [lookup, List.find?_cons, hk]
        refine ⟨?_, ?_⟩
        · intro k x hx
          rw [hsame] at hx
          split at hx
          · exact hv x hx
          · exact ih1 k x hx
        · intro k n
          rw [hsame, hsame]
          split
          · rw [hcov]; simp [Covered]
          · exact ih2 k n
      · simp at h

/-- 64-bit bound of everything stored. -/
def BoundC (c : Completed) : Prop := ∀ p ∈ c, ∀ x ∈ p.2, x.Valid

theorem BoundC.valid {c : Completed} (h : BoundC c) : ValidC c := by
  intro k x hx
  unfold lookup at hx
  cases hf : c.find? (fun p => p.1 == k) with
  | none => simp [hf] at hx
  | some p =>
    simp [hf] at hx
    exact h p (List.mem_of_find?_eq_some hf) x hx

theorem store_bound {c : Completed} (hc : BoundC c) {k : Str} {l : List Interval}
    (hl : ∀ x ∈ l, x.Valid) : BoundC (store c k l) := by
  intro p hp
  unfold store at hp
  rcases List.mem_cons.1 hp with rfl | hp
  · exact hl
  · exact hc p ((List.mem_filter.1 hp).1)

theorem addFiles_bound (key : Str) (fs : List Str) (c : Completed) (hc : BoundC c) :
    BoundC (addFiles key c fs).1 := by
  induction fs generalizing c with
  | nil => exact hc
  | cons f fs ih =>
    simp only [addFiles]
    split
    · exact hc
    · next x hx =>
      apply ih
      exact store_bound hc (appendInterval_valid _ _ (parseFileInterval_valid hx) (hc.valid key))

theorem normalizeCompleted_bound (c r : Completed) (hc : BoundC c)
    (h : normalizeCompleted c = some r) : BoundC r := by
  induction c generalizing r with
  | nil =>
    simp only [normalizeCompleted, Option.some.injEq] at h
    subst h; intro p hp; simp at hp
  | cons p c ih =>
    obtain ⟨k0, l⟩ := p
    simp only [normalizeCompleted] at h
    split at h
    · simp at h
    · split at h
      · next l' r' hl' hr' =>
        simp only [Option.some.injEq] at h
        subst h
        obtain ⟨_, hv, _⟩ := normalizeList_spec [] l l' (by simp)
          (fun i hi => (hc (k0, l) (by simp) i hi).2) hl'
        intro p hp
        rcases List.mem_cons.1 hp with rfl | hp
        · exact hv
        · exact ih r' (fun p hp => hc p (by simp [hp])) hr' p hp
      · simp at h

/-- What the journal claims of one job is true of the history `h`. `strict` is false when an
`onlysmtupdate` run happened. -/
structure GoodJob (strict : Bool) (h : List Ev) (j : Job) : Prop where
  bound : BoundC j.completed
  proc : ∀ k n, Covered (lookup j.completed k) n → Processed h k n
  smt : j.updatedSMT = true → ∀ k n, Covered (lookup j.completed k) n → ProcessedThen .smtOk h k n
  coal : strict = true → j.coalesced = true → ∀ k n, Covered (lookup j.completed k) n →
    ProcessedThen .coalesceOk h k n

theorem GoodJob.append {s : Bool} {h : List Ev} {j : Job} (g : GoodJob s h j) (t : List Ev) :
    GoodJob s (h ++ t) j :=
  ⟨g.bound, fun k n H => (g.proc k n H).append t, fun e k n H => (g.smt e k n H).append t,
    fun s e k n H => (g.coal s e k n H).append t⟩

theorem GoodJob.weaken {s : Bool} {h : List Ev} {j : Job} (g : GoodJob s h j) (s' : Bool)
    (hs : s' = true → s = true) : GoodJob s' h j :=
  ⟨g.bound, g.proc, g.smt, fun e => g.coal (hs e)⟩

def GoodJobs (s : Bool) (h : List Ev) (jobs : List Job) : Prop := ∀ j ∈ jobs, GoodJob s h j

theorem goodNew {s : Bool} {h : List Ev} {jobs : List Job} (g : GoodJobs s h jobs) :
    GoodJob s h (newJob jobs) := by
  unfold newJob
  split
  · next j hj => exact g j (List.mem_of_getLast? hj)
  · refine ⟨by intro p hp; simp at hp, ?_, by simp, by simp⟩
    intro k n hc
    obtain ⟨i, hi, _⟩ := hc
    simp [lookup] at hi

theorem GoodJobs.append {s : Bool} {h : List Ev} {jobs : List Job} (g : GoodJobs s h jobs)
    (t : List Ev) : GoodJobs s (h ++ t) jobs := fun j hj => (g j hj).append t

theorem GoodJobs.setLast {s : Bool} {h : List Ev} {jobs : List Job} (g : GoodJobs s h jobs)
    {j : Job} (hj : GoodJob s h j) : GoodJobs s h (setLast jobs j) := by
  intro i hi
  unfold Ingest.setLast at hi
  rcases List.mem_append.1 hi with hi | hi
  · exact g i (List.dropLast_subset _ hi)
  · rw [List.mem_singleton.1 hi]; exact hj

theorem normalizeJobs_good {s : Bool} {h : List Ev} {jobs r : List Job} (g : GoodJobs s h jobs)
    (hn : normalizeJobs jobs = some r) : GoodJobs s h r := by
  induction jobs generalizing r with
  | nil => simp only [normalizeJobs, Option.some.injEq] at hn; subst hn; exact g
  | cons j js ih =>
    simp only [normalizeJobs] at hn
    split at hn
    · next c r' hc hr' =>
      simp only [Option.some.injEq] at hn
      subst hn
      have gj := g j (by simp)
      obtain ⟨_, hcov⟩ := normalizeCompleted_spec j.completed c
        (fun p hp x hx => (gj.bound p hp x hx).2) hc
      intro i hi
      rcases List.mem_cons.1 hi with rfl | hi
      · refine ⟨normalizeCompleted_bound _ _ gj.bound hc, ?_, ?_, ?_⟩
        · intro k n H; exact gj.proc k n ((hcov k n).1 H)
        · intro e k n H; exact gj.smt e k n ((hcov k n).1 H)
        · intro s e k n H; exact gj.coal s e k n ((hcov k n).1 H)
      · exact ih (fun i hi => g i (by simp [hi])) hr' i hi
    · simp at hn

theorem loadJobs_good {s : Bool} {h : List Ev} {d : Disk} {jobs : List Job}
    (g : ∀ js, d = some js → GoodJobs s h js) (hl : loadJobs d = some jobs) : GoodJobs s h jobs := by
  unfold loadJobs at hl
  split at hl
  · simp only [Option.some.injEq] at hl
    subst hl
    intro j hj
    rw [List.mem_singleton.1 hj]
    exact goodNew (by intro j hj; simp at hj)
  · next js =>
    split at hl
    · next js' hjs' =>
      simp only [Option.some.injEq] at hl
      subst hl
      have gn := normalizeJobs_good (g js rfl) hjs'
      intro j hj
      rcases List.mem_append.1 hj with hj | hj
      · exact gn j hj
      · rw [List.mem_singleton.1 hj]; exact goodNew gn
    · simp at hl

/-- Every journal written while producing `evs` after history `h` is good at that point. -/
def GoodTrace (s : Bool) (h evs : List Ev) : Prop :=
  ∀ pre jobs post, evs = pre ++ Ev.write jobs :: post → GoodJobs s (h ++ pre) jobs

theorem GoodTrace.nil {s : Bool} {h : List Ev} : GoodTrace s h [] := by
  intro pre jobs post he; simp at he

theorem GoodTrace.append {s : Bool} {h a b : List Ev} (ha : GoodTrace s h a)
    (hb : GoodTrace s (h ++ a) b) : GoodTrace s h (a ++ b) := by
  intro pre jobs post he
  rw [List.append_eq_append_iff] at he
  rcases he with ⟨t, h1, h2⟩ | ⟨t, h1, h2⟩
  · rw [h1, ← List.append_assoc]
    exact hb t jobs post h2
  · cases t with
    | nil =>
      simp only [List.append_nil] at h1
      subst h1
      have := hb [] jobs post (by simpa using h2.symm)
      simpa using this
    | cons e t =>
      simp only [List.cons_append, List.cons.injEq] at h2
      obtain ⟨rfl, h2⟩ := h2
      exact ha pre jobs t h1

theorem GoodTrace.noWrite {s : Bool} {h a : List Ev} (ha : ∀ e ∈ a, ∀ jobs, e ≠ Ev.write jobs) :
    GoodTrace s h a := by
  intro pre jobs post he
  exact absurd rfl (ha (Ev.write jobs) (by rw [he]; simp) jobs)

theorem GoodTrace.write {s : Bool} {h : List Ev} {jobs : List Job} (g : GoodJobs s h jobs) (b : Bool) :
    GoodTrace s h (evIf b (.write jobs)) := by
  intro pre js post he
  unfold evIf at he
  split at he
  · cases pre with
    | nil => simp at he; rw [← he.1]; simpa using g
    | cons e pre => simp at he
  · simp at he

theorem evIf_true (e : Ev) : evIf true e = [e] := rfl
theorem evIf_false (e : Ev) : evIf false e = [] := rfl

theorem commitProgress_good {s : Bool} {h : List Ev} {key : Str} {jobs : List Job} {files : List Str}
    {co sm w : Bool} (g : GoodJobs s h jobs)
    (hp : ∀ f ∈ files, (parseFileInterval f).isSome)
    (hcov : ∀ f ∈ files, ∀ x, parseFileInterval f = some x → ∀ n, x.Has n → Processed h key n)
    (hsm : sm = true → ∀ k n, Covered (lookup (newJob jobs).completed k) n ∨
      (key = k ∧ ∃ f ∈ files, ∃ x, parseFileInterval f = some x ∧ x.Has n) → ProcessedThen .smtOk h k n)
    (hco : s = true → (co || sm) = true → ∀ k n, Covered (lookup (newJob jobs).completed k) n ∨
      (key = k ∧ ∃ f ∈ files, ∃ x, parseFileInterval f = some x ∧ x.Has n) →
        ProcessedThen .coalesceOk h k n) :
    GoodJobs s h (commitProgress key jobs files co sm w).1 ∧
    (commitProgress key jobs files co sm w).2.1 = w ∧
    GoodTrace s h (commitProgress key jobs files co sm w).2.2 ∧
    (newJob (commitProgress key jobs files co sm w).1).completed =
      (addFiles key (newJob jobs).completed files).1 := by
  have gn := goodNew g
  obtain ⟨h1, h2, h3⟩ := addFiles_spec key files _ gn.bound.valid hp
  have hlast : ∀ j, newJob (setLast jobs j) = j := by
    intro j; simp [newJob, setLast]
  have gj : GoodJob s h { newJob jobs with
      completed := (addFiles key (newJob jobs).completed files).1,
      coalesced := co || sm, updatedSMT := sm } := by
    refine ⟨addFiles_bound _ _ _ gn.bound, ?_, ?_, ?_⟩
    · intro k n H
      rcases (h3 k n).1 H with H | ⟨rfl, f, hf, x, hx, hn⟩
      · exact gn.proc k n H
      · exact hcov f hf x hx n hn
    · intro e k n H
      exact hsm e k n ((h3 k n).1 H)
    · intro e e' k n H
      exact hco e e' k n ((h3 k n).1 H)
  have gs := g.setLast gj
  simp only [commitProgress, h1, Bool.not_true, Bool.false_eq_true, if_false]
  refine ⟨gs, trivial, GoodTrace.write gs w, ?_⟩
  rw [hlast]

theorem mem_chunks {α : Type} (n : Nat) (l : List α) : ∀ c ∈ chunks n l, ∀ x ∈ c, x ∈ l := by
  fun_induction chunks n l with
  | case1 => simp
  | case2 x xs h =>
    intro c hc y hy
    rw [List.mem_singleton.1 hc] at hy; exact hy
  | case3 x xs h ih =>
    intro c hc y hy
    rcases List.mem_cons.1 hc with rfl | hc
    · exact List.mem_of_mem_take hy
    · exact List.mem_of_mem_drop (ih c hc y hy)

theorem runBatches_good {s : Bool} (e : Env) (hs : s = true → e.strategy ≠ .onlySmt)
    (bs : List (List Str)) (hp : ∀ b ∈ bs, ∀ f ∈ b, (parseFileInterval f).isSome) :
    ∀ (i : Nat) (h : List Ev) (jobs : List Job), GoodJobs s h jobs →
    GoodTrace s h (runBatches e (pathBase e.dir) i jobs bs).1 ∧
    GoodJobs s (h ++ (runBatches e (pathBase e.dir) i jobs bs).1)
      (runBatches e (pathBase e.dir) i jobs bs).2 := by
  induction bs with
  | nil => intro i h jobs g; simp only [runBatches]; exact ⟨GoodTrace.nil, by simpa using g⟩
  | cons files rest ih =>
    intro i h jobs g
    have hpf := hp files (by simp)
    have hpr : ∀ b ∈ rest, ∀ f ∈ b, (parseFileInterval f).isSome := fun b hb => hp b (by simp [hb])
    simp only [runBatches]
    split
    · exact ⟨GoodTrace.nil, by simpa using g⟩
    split
    · exact ⟨GoodTrace.nil, by simpa using g⟩
    split
    · exact ⟨GoodTrace.noWrite (by simp), g.append _⟩
    have nw1 : ∀ ev ∈ [Ev.batchOk e.dir files] ++ evIf e.strategy.coalesce .coalesceOk,
        ∀ jobs, ev ≠ Ev.write jobs := by
      intro ev hev jobs; unfold evIf at hev; split at hev <;> simp at hev
      · rcases hev with rfl | rfl <;> simp
      · subst hev; simp
    split
    · exact ⟨GoodTrace.noWrite nw1, g.append _⟩
    next hco hsm =>
    -- events before the commit
    generalize hev2 : [Ev.batchOk e.dir files] ++ evIf e.strategy.coalesce .coalesceOk ++
      evIf e.strategy.smt .smtOk = ev2
    have nw2 : ∀ ev ∈ ev2, ∀ jobs, ev ≠ Ev.write jobs := by
      intro ev hev jobs
      rw [← hev2] at hev
      rcases List.mem_append.1 hev with hev | hev
      · exact nw1 ev hev jobs
      · unfold evIf at hev; split at hev <;> simp at hev
        subst hev; simp
    have g2 := g.append ev2
    have gn := goodNew g
    have hall : ∀ pre, Ev.batchOk e.dir files ∈ pre → ∀ k n,
        (Covered (lookup (newJob jobs).completed k) n ∨
        (pathBase e.dir = k ∧ ∃ f ∈ files, ∃ x, parseFileInterval f = some x ∧ x.Has n)) →
        Processed (h ++ pre) k n := by
      intro pre hpre k n H
      rcases H with H | ⟨rfl, f, hf, x, hx, hn⟩
      · exact (gn.proc k n H).append pre
      · exact ⟨e.dir, files, f, x, by simp [hpre], rfl, hf, hx, hn⟩
    have hC := commitProgress_good (s := s) (h := h ++ ev2) (key := pathBase e.dir) (jobs := jobs)
      (files := files) (co := e.strategy.coalesce) (sm := e.strategy.smt) (w := e.writeOk i) g2 hpf
      (by
        intro f hf x hx n hn
        exact ⟨e.dir, files, f, x, by rw [← hev2]; simp, rfl, hf, hx, hn⟩)
      (by
        intro hsm k n H
        refine ⟨h ++ ([Ev.batchOk e.dir files] ++ evIf e.strategy.coalesce .coalesceOk),
          evIf e.strategy.smt .smtOk, by rw [← hev2]; simp, hall _ (by simp) k n H, ?_⟩
        rw [hsm]; simp [evIf])
      (by
        intro hs' hcs k n H
        have hco' : e.strategy.coalesce = true := by
          have := hs hs'
          revert hcs this
          cases e.strategy <;> simp [Strategy.coalesce, Strategy.smt]
        refine ⟨h ++ [Ev.batchOk e.dir files],
          evIf e.strategy.coalesce .coalesceOk ++ evIf e.strategy.smt .smtOk,
          by rw [← hev2]; simp, hall _ (by simp) k n H, ?_⟩
        rw [hco']; simp [evIf])
    obtain ⟨c1, c2, c3, _⟩ := hC
    split
    · refine ⟨(GoodTrace.noWrite nw2).append c3, ?_⟩
      rw [← List.append_assoc]
      exact c1.append _
    · have := ih hpr (i + 1) (h ++ ev2 ++
        (commitProgress (pathBase e.dir) jobs files e.strategy.coalesce e.strategy.smt (e.writeOk i)).2.2)
        _ (c1.append _)
      refine ⟨((GoodTrace.noWrite nw2).append c3).append ?_, ?_⟩
      · rw [← List.append_assoc]; exact this.1
      · simp only [List.append_assoc] at this ⊢; exact this.2

theorem setCt_good {s : Bool} {h : List Ev} {jobs : List Job} (g : GoodJobs s h jobs) (n : Nat) :
    GoodJobs s h (setLast jobs { newJob jobs with ctSize := n }) := by
  have gn := goodNew g
  exact g.setLast ⟨gn.bound, gn.proc, gn.smt, gn.coal⟩

theorem runRecord_good {s : Bool} (e : Env) (key : Str) (h : List Ev)
    (jobs : List Job) (g : GoodJobs s h jobs) :
    GoodTrace s h (runRecord e key jobs).1 ∧ GoodJobs s (h ++ (runRecord e key jobs).1) (runRecord e key jobs).2 := by
  have trivial_case : GoodTrace s h ([] : List Ev) ∧ GoodJobs s (h ++ []) jobs :=
    ⟨GoodTrace.nil, by simpa using g⟩
  unfold runRecord
  split
  · exact trivial_case
  split
  · exact trivial_case
  next n _ =>
  split
  · exact trivial_case
  have gs := (setCt_good g n)
  exact ⟨(GoodTrace.noWrite (by simp)).append (GoodTrace.write (gs.append _) _), gs.append _⟩

theorem phaseCoalesce_good {s : Bool} (e : Env) (key : Str) (h : List Ev)
    (jobs : List Job) (g : GoodJobs s h jobs) :
    GoodTrace s h (phaseCoalesce e key jobs).1 ∧
    GoodJobs s (h ++ (phaseCoalesce e key jobs).1) (phaseCoalesce e key jobs).2.1 ∧
    ((phaseCoalesce e key jobs).2.2 = true → e.strategy.coalesce = true →
      ∀ k n, Covered (lookup (newJob (phaseCoalesce e key jobs).2.1).completed k) n →
        ProcessedThen .coalesceOk (h ++ (phaseCoalesce e key jobs).1) k n) := by
  have gn := goodNew g
  unfold phaseCoalesce
  split
  · split
    · exact ⟨GoodTrace.nil, by simpa using g, by simp⟩
    · have := commitProgress_good (s := s) (h := h ++ [Ev.coalesceOk]) (key := key)
        (jobs := jobs) (files := []) (co := true) (sm := false) (w := e.writeOk 0) (g.append _)
        (by simp) (by simp) (by simp)
        (by
          intro _ _ k n H
          rcases H with H | ⟨_, f, hf, _⟩
          · exact ⟨h, [.coalesceOk], rfl, gn.proc k n H, by simp⟩
          · simp at hf)
      refine ⟨(GoodTrace.noWrite (by simp)).append this.2.2.1, ?_, ?_⟩
      · have h2 := this.1.append (commitProgress key jobs [] true false (e.writeOk 0)).2.2
        simpa only [List.append_assoc] using h2
      · intro _ _ k n H
        have hsame := this.2.2.2
        simp only [addFiles] at hsame
        rw [hsame] at H
        exact ⟨h, _, rfl, gn.proc k n H, by simp⟩
  · next hc => exact ⟨GoodTrace.nil, by simpa using g, by simp [hc]⟩

theorem phaseSmt_good {s : Bool} (e : Env) (key : Str) (h : List Ev)
    (jobs : List Job) (g : GoodJobs s h jobs)
    (hc : s = true → ∀ k n, Covered (lookup (newJob jobs).completed k) n →
        ProcessedThen .coalesceOk h k n) :
    GoodTrace s h (phaseSmt e key jobs).1 ∧
    GoodJobs s (h ++ (phaseSmt e key jobs).1) (phaseSmt e key jobs).2 := by
  have gn := goodNew g
  unfold phaseSmt
  split
  · exact ⟨GoodTrace.nil, by simpa using g⟩
  split
  · exact ⟨GoodTrace.nil, by simpa using g⟩
  have := commitProgress_good (s := s) (h := h ++ [Ev.smtOk]) (key := key)
    (jobs := jobs) (files := []) (co := e.strategy.coalesce) (sm := true) (w := e.writeOk 1)
    (g.append _) (by simp) (by simp)
    (by
      intro _ k n H
      rcases H with H | ⟨_, f, hf, _⟩
      · exact ⟨h, [.smtOk], rfl, gn.proc k n H, by simp⟩
      · simp at hf)
    (by
      intro hs' _ k n H
      rcases H with H | ⟨_, f, hf, _⟩
      · exact (hc hs' k n H).append _
      · simp at hf)
  refine ⟨(GoodTrace.noWrite (by simp)).append this.2.2.1, ?_⟩
  have h2 := this.1.append (commitProgress key jobs [] e.strategy.coalesce true (e.writeOk 1)).2.2
  simpa only [List.append_assoc] using h2

theorem runNoIngest_good {s : Bool} (e : Env) (key : Str) (h : List Ev)
    (jobs : List Job) (g : GoodJobs s h jobs) (hs : s = true → e.strategy.coalesce = true) :
    GoodTrace s h (runNoIngest e key jobs).1 ∧
    GoodJobs s (h ++ (runNoIngest e key jobs).1) (runNoIngest e key jobs).2 := by
  unfold runNoIngest
  split
  · exact ⟨GoodTrace.nil, by simpa using g⟩
  obtain ⟨h1, h2, h3⟩ := phaseCoalesce_good e key h jobs g
  simp only
  split
  · exact ⟨h1, h2⟩
  · next hr =>
    simp only [Bool.not_eq_true', Bool.not_eq_false] at hr
    have := phaseSmt_good e key _ _ h2 (fun hs' => h3 hr (hs hs'))
    refine ⟨h1.append this.1, ?_⟩
    rw [← List.append_assoc]; exact this.2

theorem runBody_good {s : Bool} (e : Env) (hs : s = true → e.strategy ≠ .onlySmt) (h : List Ev)
    (jobs : List Job) (g : GoodJobs s h jobs) :
    GoodTrace s h (runBody e jobs).1 ∧ GoodJobs s (h ++ (runBody e jobs).1) (runBody e jobs).2 := by
  unfold runBody
  simp only
  split
  · exact runRecord_good e _ h jobs g
  next hr =>
  split
  · next hi =>
    apply runNoIngest_good e _ h jobs g
    intro hs'
    have := hs hs'
    revert hi hr this
    cases e.strategy <;> simp [Strategy.ingest, Strategy.coalesce]
  · unfold runWithIngest
    split
    · exact ⟨GoodTrace.nil, by simpa using g⟩
    next files hf =>
    obtain ⟨hp1, hp2⟩ := pendingFiles_spec _ _ _ _ hf
    exact runBatches_good e hs _ (by
      intro b hb f hfb
      have := mem_chunks _ _ b hb f hfb
      rw [hp2] at this
      exact hp1 f ((List.mem_filter.1 this).1)) 0 h jobs g

theorem runTrace_good {s : Bool} (e : Env) (hs : s = true → e.strategy ≠ .onlySmt) (h : List Ev)
    (d : Disk) (g : ∀ js, d = some js → GoodJobs s h js) : GoodTrace s h (runTrace e d) := by
  unfold runTrace
  split
  · exact GoodTrace.nil
  next jobs hj =>
  have gj := loadJobs_good g hj
  split
  · exact GoodTrace.nil
  have gb := runBody_good e hs (h ++ [Ev.write jobs]) jobs (gj.append _)
  have h1 : GoodTrace s h [Ev.write jobs] := by simpa [evIf] using GoodTrace.write gj true
  have := (h1.append gb.1)
  refine GoodTrace.append (a := Ev.write jobs :: (runBody e jobs).1) ?_ ?_
  · simpa using this
  · apply GoodTrace.write
    have h2 := gb.2
    rw [List.append_assoc] at h2
    exact h2

theorem applyEvs_eq (d : Disk) (evs : List Ev) :
    applyEvs d evs = d ∨ ∃ pre jobs post, evs = pre ++ Ev.write jobs :: post ∧
      applyEvs d evs = some jobs := by
  induction evs generalizing d with
  | nil => left; rfl
  | cons e es ih =>
    cases e with
    | write jobs =>
      simp only [applyEvs]
      rcases ih (some jobs) with h | ⟨pre, js, post, h1, h2⟩
      · exact Or.inr ⟨[], jobs, es, rfl, h⟩
      · exact Or.inr ⟨.write jobs :: pre, js, post, by rw [h1]; rfl, h2⟩
    | batchOk dir files =>
      simp only [applyEvs]
      rcases ih d with h | ⟨pre, js, post, h1, h2⟩
      · exact Or.inl h
      · exact Or.inr ⟨_ :: pre, js, post, by rw [h1]; rfl, h2⟩
    | coalesceOk =>
      simp only [applyEvs]
      rcases ih d with h | ⟨pre, js, post, h1, h2⟩
      · exact Or.inl h
      · exact Or.inr ⟨_ :: pre, js, post, by rw [h1]; rfl, h2⟩
    | smtOk =>
      simp only [applyEvs]
      rcases ih d with h | ⟨pre, js, post, h1, h2⟩
      · exact Or.inl h
      · exact Or.inr ⟨_ :: pre, js, post, by rw [h1]; rfl, h2⟩
    | recordSize dir n =>
      simp only [applyEvs]
      rcases ih d with h | ⟨pre, js, post, h1, h2⟩
      · exact Or.inl h
      · exact Or.inr ⟨_ :: pre, js, post, by rw [h1]; rfl, h2⟩

/-- One run, stopped anywhere, keeps the journal on disk truthful. -/
theorem run_good {s : Bool} (e : Env) (hs : s = true → e.strategy ≠ .onlySmt) (h : List Ev)
    (d : Disk) (g : ∀ js, d = some js → GoodJobs s h js) (pre : List Ev) (hp : pre <+: runTrace e d) :
    ∀ js, applyEvs d pre = some js → GoodJobs s (h ++ pre) js := by
  intro js hjs
  rcases applyEvs_eq d pre with h1 | ⟨a, jobs, b, h1, h2⟩
  · rw [h1] at hjs; exact (g js hjs).append _
  · rw [h2] at hjs
    obtain rfl : jobs = js := by simpa using hjs
    obtain ⟨t, ht⟩ := hp
    have := runTrace_good e hs h d g a jobs (b ++ t) (by rw [← ht, h1]; simp)
    rw [h1]
    rw [← List.append_assoc]
    exact this.append _

theorem history_good {h : List Ev} {d : Disk} (H : History h d) :
    ∀ js, d = some js → GoodJobs false h js := by
  induction H with
  | init => intro js h; cases h
  | run h d e pre _ hp ih => exact run_good e (by simp) h d ih pre hp

/-- Histories in which no run uses the strategy `onlysmtupdate`. -/
inductive HistoryNoSmtOnly : List Ev → Disk → Prop where
  | init : HistoryNoSmtOnly [] none
  | run (h : List Ev) (d : Disk) (e : Env) (pre : List Ev) : e.strategy ≠ .onlySmt →
      HistoryNoSmtOnly h d → pre <+: runTrace e d → HistoryNoSmtOnly (h ++ pre) (applyEvs d pre)

theorem historyNoSmtOnly_good {h : List Ev} {d : Disk} (H : HistoryNoSmtOnly h d) :
    ∀ js, d = some js → GoodJobs true h js := by
  induction H with
  | init => intro js h; cases h
  | run h d e pre hs _ hp ih => exact run_good e (fun _ => hs) h d ih pre hp

end Fpki.Ingest

namespace Fpki.Ingest
open Fpki.Journal

/-! ### Text form of intervals -/

theorem charVal (n : Nat) (h : n < 10) : (Char.ofNat (48 + n)).toNat = 48 + n := by
  have : n = 0 ∨ n = 1 ∨ n = 2 ∨ n = 3 ∨ n = 4 ∨ n = 5 ∨ n = 6 ∨ n = 7 ∨ n = 8 ∨ n = 9 := by omega
  rcases this with h | h | h | h | h | h | h | h | h | h <;> subst h <;> rfl

theorem isDig_digit (n : Nat) (h : n < 10) : isDig (Char.ofNat (48 + n)) = true := by
  simp only [isDig, charVal n h, Bool.and_eq_true, decide_eq_true_eq]; omega

theorem showNat_dig (n : Nat) : ∀ c ∈ showNat n, isDig c = true := by
  fun_induction showNat n with
  | case1 n h => intro c hc; rw [List.mem_singleton.1 hc]; exact isDig_digit n h
  | case2 n h ih =>
    intro c hc
    rcases List.mem_append.1 hc with hc | hc
    · exact ih c hc
    · rw [List.mem_singleton.1 hc]; exact isDig_digit _ (Nat.mod_lt _ (by omega))

theorem showNat_ne (n : Nat) : showNat n ≠ [] := by
  fun_induction showNat n <;> simp

theorem digitsVal_showNat (n : Nat) : digitsVal (showNat n) = n := by
  fun_induction showNat n with
  | case1 n h => simp [digitsVal, charVal n h]
  | case2 n h ih =>
    unfold digitsVal at *
    rw [List.foldl_append, ih]
    simp only [List.foldl_cons, List.foldl_nil]
    rw [charVal _ (Nat.mod_lt _ (by omega))]
    omega

theorem takeWhile_show (n : Nat) (t : Str) :
    (showNat n ++ '-' :: t).takeWhile isDig = showNat n ∧
    (showNat n ++ '-' :: t).dropWhile isDig = '-' :: t := by
  have h := showNat_dig n
  generalize showNat n = l at h
  induction l with
  | nil => constructor <;> rfl
  | cons c l ih =>
    have := ih (fun d hd => h d (by simp [hd]))
    simp [List.takeWhile_cons, List.dropWhile_cons, h c (by simp), this]

theorem parse_show (i : Interval) (h : i.Valid) : parseIntervalString (showInterval i) = some i := by
  obtain ⟨h1, h2⟩ := takeWhile_show i.start (showNat i.stop)
  unfold parseIntervalString showInterval
  rw [h2]
  simp only [h1]
  have hb : (showNat i.stop).all isDig = true := List.all_eq_true.2 (showNat_dig _)
  have e1 : (showNat i.start).isEmpty = false := by simp [showNat_ne]
  have e2 : (showNat i.stop).isEmpty = false := by simp [showNat_ne]
  have hs : i.start < W := by have := h.1; have := h.2; omega
  simp only [e1, e2, hb, parseUint, digitsVal_showNat, h.2, hs, Bool.not_true, Bool.or_self,
    Bool.false_eq_true, if_false, if_true]
  rw [if_neg (by have := h.1; omega)]

theorem containsInterval_sound (l : List Interval) (x : Interval) (h : containsInterval l x = true) :
    ∃ i ∈ l, i.start ≤ x.start ∧ x.stop ≤ i.stop := by
  unfold containsInterval at h
  simp only [Bool.and_eq_true, decide_eq_true_eq, beq_iff_eq] at h
  have hle := searchIdx_le l x
  split at h
  · next hh =>
    rw [getD_mem_lt hh.1] at h hh
    simp only [decide_eq_true_eq] at h
    exact ⟨_, List.getElem_mem hh.1, by omega, h⟩
  · split at h
    · simp at h
    · next h0 =>
      have hlt : searchIdx l x - 1 < l.length := by omega
      rw [getD_mem_lt hlt] at h
      simp only [Bool.and_eq_true, decide_eq_true_eq] at h
      exact ⟨_, List.getElem_mem hlt, h.1, h.2⟩

end Fpki.Ingest
