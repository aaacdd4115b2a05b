import Verif.Lemmas.Ingest

/-! # What a run of the ingest command writes to the journal -/
namespace Fpki.Ingest
open Fpki.Journal

/-- No entry without a directory. -/
def KeysOk (c : Completed) : Prop := ∀ p ∈ c, p.1 ≠ []

/-- A journal consisting of the jobs `js` and one more job. -/
def OneMore (js : List Job) (jobs : List Job) : Prop := ∃ j, jobs = js ++ [j] ∧ KeysOk j.completed

/-- Everything written has this form. -/
def Writes (js : List Job) (evs : List Ev) : Prop := ∀ jobs, Ev.write jobs ∈ evs → OneMore js jobs

theorem Writes.nil {js : List Job} : Writes js [] := by intro _ h; cases h

theorem Writes.append {js : List Job} {a b : List Ev} (ha : Writes js a) (hb : Writes js b) : Writes js (a ++ b) := by
  intro jobs h
  rcases List.mem_append.1 h with h | h
  · exact ha jobs h
  · exact hb jobs h

theorem Writes.evIf {js jobs : List Job} (h : OneMore js jobs) (b : Bool) : Writes js (evIf b (.write jobs)) := by
  intro x hx
  unfold Ingest.evIf at hx
  split at hx
  · simp only [List.mem_singleton, Ev.write.injEq] at hx; subst hx; exact h
  · cases hx

theorem Writes.other {js : List Job} {evs : List Ev} (h : ∀ e ∈ evs, ∀ jobs, e ≠ Ev.write jobs) : Writes js evs :=
  fun jobs hm => (h _ hm jobs rfl).elim

theorem pathBase_ne (p : Str) : pathBase p ≠ [] := by
  unfold pathBase
  split
  · simp
  · simp only []
    split
    · simp
    · rename_i h
      simp only [List.isEmpty_iff] at h
      simpa using h

theorem addFiles_keys (key : Str) (hk : key ≠ []) (fs : List Str) : ∀ (c : Completed), KeysOk c → KeysOk (addFiles key c fs).1 := by
  induction fs with
  | nil => intro c h; exact h
  | cons f fs ih =>
    intro c h
    simp only [addFiles]
    split
    · exact h
    · apply ih
      intro p hp
      rcases List.mem_cons.1 hp with rfl | hp
      · exact hk
      · exact h p (List.mem_filter.1 hp).1

theorem setLast_one {js jobs : List Job} (h : OneMore js jobs) (j : Job) (hj : KeysOk j.completed) : OneMore js (setLast jobs j) := by
  obtain ⟨i, rfl, _⟩ := h
  exact ⟨j, by simp [setLast], hj⟩

theorem newJob_keys {js jobs : List Job} (h : OneMore js jobs) : KeysOk (newJob jobs).completed := by
  obtain ⟨i, rfl, hi⟩ := h
  simpa [newJob] using hi

theorem commitProgress_one {js jobs : List Job} (h : OneMore js jobs) (key : Str) (hk : key ≠ []) (files : List Str) (co sm w : Bool) :
    OneMore js (commitProgress key jobs files co sm w).1 ∧ Writes js (commitProgress key jobs files co sm w).2.2 := by
  have ha := addFiles_keys key hk files _ (newJob_keys h)
  unfold commitProgress
  simp only []
  cases hb : (addFiles key (newJob jobs).completed files).2 with
  | false => simp only [Bool.not_false, if_true]; exact ⟨setLast_one h _ ha, Writes.nil⟩
  | true =>
    simp only [Bool.not_true, Bool.false_eq_true, if_false]
    exact ⟨setLast_one h _ ha, Writes.evIf (setLast_one h _ ha) w⟩

theorem single_other {js : List Job} (e : Ev) (h : ∀ jobs, e ≠ .write jobs) : Writes js [e] :=
  Writes.other (by intro x hx; rw [List.mem_singleton.1 hx]; exact h)

theorem evIf_other {js : List Job} (b : Bool) (e : Ev) (h : ∀ jobs, e ≠ .write jobs) : Writes js (evIf b e) := by
  unfold evIf
  split
  · exact single_other e h
  · exact Writes.nil

theorem runBatches_one (e : Env) (key : Str) (hk : key ≠ []) (bs : List (List Str)) : ∀ {js : List Job} (i : Nat) (jobs : List Job), OneMore js jobs →
    OneMore js (runBatches e key i jobs bs).2 ∧ Writes js (runBatches e key i jobs bs).1 := by
  induction bs with
  | nil => intro js i jobs h; exact ⟨h, Writes.nil⟩
  | cons files rest ih =>
    intro js i jobs h
    simp only [runBatches]
    split
    · exact ⟨h, Writes.nil⟩
    split
    · exact ⟨h, Writes.nil⟩
    have w0 : Writes js [Ev.batchOk e.dir files] := single_other _ (by simp)
    split
    · exact ⟨h, w0⟩
    have w1 := w0.append (evIf_other (js := js) e.strategy.coalesce .coalesceOk (by simp))
    split
    · exact ⟨h, w1⟩
    have w2 := w1.append (evIf_other (js := js) e.strategy.smt .smtOk (by simp))
    obtain ⟨c1, c2⟩ := commitProgress_one h key hk files e.strategy.coalesce e.strategy.smt (e.writeOk i)
    split
    · exact ⟨c1, w2.append c2⟩
    · obtain ⟨i1, i2⟩ := ih (i + 1) _ c1
      exact ⟨i1, (w2.append c2).append i2⟩

theorem runRecord_one (e : Env) (key : Str) {js jobs : List Job} (h : OneMore js jobs) :
    OneMore js (runRecord e key jobs).2 ∧ Writes js (runRecord e key jobs).1 := by
  unfold runRecord
  split
  · exact ⟨h, Writes.nil⟩
  split
  · exact ⟨h, Writes.nil⟩
  split
  · exact ⟨h, Writes.nil⟩
  · rename_i n _ _
    have hs : OneMore js (setLast jobs { newJob jobs with ctSize := n }) := setLast_one h _ (newJob_keys h)
    exact ⟨hs, (single_other _ (by simp)).append (Writes.evIf hs _)⟩

theorem phaseCoalesce_one (e : Env) (key : Str) (hk : key ≠ []) {js jobs : List Job} (h : OneMore js jobs) :
    OneMore js (phaseCoalesce e key jobs).2.1 ∧ Writes js (phaseCoalesce e key jobs).1 := by
  unfold phaseCoalesce
  split
  · split
    · exact ⟨h, Writes.nil⟩
    · obtain ⟨c1, c2⟩ := commitProgress_one h key hk [] true false (e.writeOk 0)
      exact ⟨c1, (single_other _ (by simp)).append c2⟩
  · exact ⟨h, Writes.nil⟩

theorem phaseSmt_one (e : Env) (key : Str) (hk : key ≠ []) {js jobs : List Job} (h : OneMore js jobs) :
    OneMore js (phaseSmt e key jobs).2 ∧ Writes js (phaseSmt e key jobs).1 := by
  unfold phaseSmt
  split
  · exact ⟨h, Writes.nil⟩
  split
  · exact ⟨h, Writes.nil⟩
  · obtain ⟨c1, c2⟩ := commitProgress_one h key hk [] e.strategy.coalesce true (e.writeOk 1)
    exact ⟨c1, (single_other _ (by simp)).append c2⟩

theorem runBody_one (e : Env) {js jobs : List Job} (h : OneMore js jobs) :
    OneMore js (runBody e jobs).2 ∧ Writes js (runBody e jobs).1 := by
  have hk := pathBase_ne e.dir
  unfold runBody
  simp only []
  split
  · exact runRecord_one e _ h
  split
  · unfold runNoIngest
    split
    · exact ⟨h, Writes.nil⟩
    · obtain ⟨p1, p2⟩ := phaseCoalesce_one e _ hk h
      simp only []
      split
      · exact ⟨p1, p2⟩
      · obtain ⟨q1, q2⟩ := phaseSmt_one e _ hk p1
        exact ⟨q1, p2.append q2⟩
  · unfold runWithIngest
    split
    · exact ⟨h, Writes.nil⟩
    · exact runBatches_one e _ hk _ 0 jobs h

/-- All keys of the journal are directories. -/
def AllKeys (jobs : List Job) : Prop := ∀ j ∈ jobs, KeysOk j.completed

/-- The stored jobs as they are after reading them. -/
def reread : Disk → Option (List Job)
  | none => some []
  | some jobs => normalizeJobs jobs

theorem loadJobs_eq (d : Disk) : loadJobs d = (reread d).map fun js => js ++ [newJob js] := by
  cases d with
  | none => rfl
  | some jobs =>
    simp only [loadJobs, reread]
    cases normalizeJobs jobs <;> rfl

theorem newJob_keys' {js : List Job} (h : AllKeys js) : KeysOk (newJob js).completed := by
  unfold newJob
  split
  · next j hj => exact h j (List.mem_of_getLast? hj)
  · intro p hp; cases hp

theorem runTrace_one (e : Env) (d : Disk) (js : List Job) (hr : reread d = some js) (hk : AllKeys js) : Writes js (runTrace e d) := by
  unfold runTrace
  rw [loadJobs_eq, hr]
  simp only [Option.map_some]
  split
  · exact Writes.nil
  · have h0 : OneMore js (js ++ [newJob js]) := ⟨_, rfl, newJob_keys' hk⟩
    obtain ⟨b1, b2⟩ := runBody_one e h0
    have w0 : Writes js [Ev.write (js ++ [newJob js])] := by
      intro x hx; simp only [List.mem_singleton, Ev.write.injEq] at hx; subst hx; exact h0
    exact (w0.append b2).append (Writes.evIf b1 e.closeOk)

theorem runTrace_none (e : Env) (d : Disk) (hr : reread d = none) : runTrace e d = [] := by
  unfold runTrace
  rw [loadJobs_eq, hr]
  rfl

/-- Reading changes nothing but the representation of the index sets. -/
structure SameJob (a b : Job) : Prop where
  coalesced : b.coalesced = a.coalesced
  updatedSMT : b.updatedSMT = a.updatedSMT
  ctSize : b.ctSize = a.ctSize
  keys : b.completed.map (·.1) = a.completed.map (·.1)
  covered : ∀ k n, Covered (lookup b.completed k) n ↔ Covered (lookup a.completed k) n

theorem SameJob.refl (a : Job) : SameJob a a := ⟨rfl, rfl, rfl, rfl, fun _ _ => Iff.rfl⟩

theorem SameJob.trans {a b c : Job} (h : SameJob a b) (g : SameJob b c) : SameJob a c :=
  ⟨g.coalesced.trans h.coalesced, g.updatedSMT.trans h.updatedSMT, g.ctSize.trans h.ctSize, g.keys.trans h.keys,
    fun k n => (g.covered k n).trans (h.covered k n)⟩

theorem normalizeList_total (l : List Interval) : ∀ acc, (∀ i ∈ l, i.start ≤ i.stop) → ∃ r, normalizeList acc l = some r := by
  induction l with
  | nil => intro acc _; exact ⟨acc, rfl⟩
  | cons x xs ih =>
    intro acc h
    simp only [normalizeList]
    rw [if_neg (by have := h x (by simp); omega)]
    exact ih _ fun i hi => h i (by simp [hi])

theorem normalizeCompleted_total (c : Completed) (hk : KeysOk c) (hb : BoundC c) :
    ∃ r, normalizeCompleted c = some r ∧ r.map (·.1) = c.map (·.1) := by
  induction c with
  | nil => exact ⟨[], rfl, rfl⟩
  | cons p c ih =>
    obtain ⟨k, l⟩ := p
    obtain ⟨r, hr, hrk⟩ := ih (fun p hp => hk p (by simp [hp])) (fun p hp => hb p (by simp [hp]))
    obtain ⟨l', hl'⟩ := normalizeList_total l [] fun i hi => (hb (k, l) (by simp) i hi).1
    have hne : k.isEmpty = false := by
      have := hk (k, l) (by simp)
      simpa using this
    refine ⟨(k, l') :: r, ?_, by simp [hrk]⟩
    simp only [normalizeCompleted, hne, Bool.false_eq_true, if_false, hl', hr]

theorem normalizeJobs_total (jobs : List Job) (hk : AllKeys jobs) (hb : ∀ j ∈ jobs, BoundC j.completed) :
    ∃ r, normalizeJobs jobs = some r ∧ r.length = jobs.length ∧ AllKeys r ∧
      ∀ (i : Nat) (j : Job), jobs[i]? = some j → ∃ j', r[i]? = some j' ∧ SameJob j j' := by
  induction jobs with
  | nil => exact ⟨[], rfl, rfl, (by intro j hj; cases hj), (by intro i j h; simp at h)⟩
  | cons j js ih =>
    obtain ⟨r, hr, hl, hrk, hs⟩ := ih (fun i hi => hk i (by simp [hi])) (fun i hi => hb i (by simp [hi]))
    obtain ⟨c, hc, hck⟩ := normalizeCompleted_total j.completed (hk j (by simp)) (hb j (by simp))
    obtain ⟨_, hcov⟩ := normalizeCompleted_spec j.completed c (fun p hp x hx => (hb j (by simp) p hp x hx).2) hc
    refine ⟨{ j with completed := c } :: r, ?_, by simp [hl], ?_, ?_⟩
    · simp only [normalizeJobs, hc, hr]
    · intro i hi
      rcases List.mem_cons.1 hi with rfl | hi
      · intro p hp
        have : p.1 ∈ c.map (·.1) := List.mem_map_of_mem hp
        rw [hck] at this
        obtain ⟨q, hq, e⟩ := List.mem_map.1 this
        rw [← e]
        exact hk j (by simp) q hq
      · exact hrk i hi
    · intro i i' hi
      cases i with
      | zero =>
        simp only [List.getElem?_cons_zero, Option.some.injEq] at hi
        subst hi
        exact ⟨_, rfl, ⟨rfl, rfl, rfl, hck, hcov⟩⟩
      | succ i =>
        simp only [List.getElem?_cons_succ] at hi
        obtain ⟨j', h1, h2⟩ := hs i i' hi
        exact ⟨j', by simpa using h1, h2⟩

theorem reread_total {h : List Ev} {d : Disk} (H : History h d) (hk : ∀ js, d = some js → AllKeys js) :
    ∃ js, reread d = some js ∧ AllKeys js ∧ ∀ jobs, d = some jobs → js.length = jobs.length ∧
      ∀ (i : Nat) (j : Job), jobs[i]? = some j → ∃ j', js[i]? = some j' ∧ SameJob j j' := by
  cases d with
  | none => exact ⟨[], rfl, (by intro j hj; cases hj), (by intro jobs h; cases h)⟩
  | some jobs =>
    obtain ⟨r, h1, h2, h3, h4⟩ := normalizeJobs_total jobs (hk jobs rfl) fun j hj => (history_good H jobs rfl j hj).bound
    refine ⟨r, h1, h3, ?_⟩
    intro jobs' e
    cases e
    exact ⟨h2, h4⟩

theorem disk_after (d : Disk) (js : List Job) (evs : List Ev) (hw : Writes js evs) : applyEvs d evs = d ∨ ∃ jobs, applyEvs d evs = some jobs ∧ OneMore js jobs := by
  rcases applyEvs_eq d evs with h | ⟨pre, jobs, post, h1, h2⟩
  · exact .inl h
  · exact .inr ⟨jobs, h2, hw jobs (by rw [h1]; simp)⟩

theorem Writes.prefix {js : List Job} {a b : List Ev} (h : Writes js b) (hp : a <+: b) : Writes js a :=
  fun jobs hm => h jobs (hp.subset hm)

theorem history_keys {h : List Ev} {d : Disk} (H : History h d) : ∀ js, d = some js → AllKeys js := by
  induction H with
  | init => intro js h; cases h
  | run h d e pre H hp ih =>
    obtain ⟨js, h1, h2, _⟩ := reread_total H ih
    have hw := (runTrace_one e d js h1 h2).prefix hp
    rcases disk_after d js pre hw with h' | ⟨jobs, h', j, rfl, hj⟩
    · rw [h']; exact ih
    · rw [h']
      intro js' e'
      cases e'
      intro i hi
      rcases List.mem_append.1 hi with hi | hi
      · exact h2 i hi
      · rw [List.mem_singleton.1 hi]; exact hj

end Fpki.Ingest
