import Verif.Model.LogServe

/-!
# C201, C202, C203: stopping the policy log
-/
namespace Fpki.LogServe

/-- The invariant of all runs. -/
structure Inv (s : St) : Prop where
  created : s.srv = .created → s.run = .notStarted ∧ s.inflight = 0 ∧ s.main = .select
  notStarted : s.run = .notStarted → s.inflight = 0 ∧ s.srv ≠ .serving ∧ (s.main = .select ∨ s.main = .stopping ∨ s.main = .waiting)
  stopping : s.main = .stopping ∨ s.main = .waiting → s.srv = .stopped
  waiting : s.main = .waiting → s.inflight = 0
  select : s.main = .select → s.srv = .stopped → False
  good : s.run = .returned false → s.srv = .stopped ∧ s.inflight = 0
  left : (∀ e, s.main = .leaving e ∨ s.main = .dbClosed e ∨ s.main = .lastStop e ∨ s.main = .finished e → s.run = .returned e)
  last : (∀ e, s.main = .lastStop e → s.srv = .stopped)

theorem inv_init : Inv .init := by
  constructor <;> simp [St.init]

theorem inv_step {s t : St} {e : Ev} (h : Inv s) (hs : exec s e = some t) : Inv t := by
  obtain ⟨cancelled, srv, inflight, run, main⟩ := s
  obtain ⟨h1, h2, h3, h4, h5, h6, h7, h8⟩ := h
  cases e <;> simp only [exec] at hs
  case cancel => cases hs; constructor <;> assumption
  case serve =>
    split at hs <;> first | cases hs | skip
    all_goals constructor <;> simp_all
    all_goals (intros; simp_all)
  case request =>
    split at hs <;> cases hs
    constructor <;> simp_all
  case reply =>
    split at hs <;> cases hs
    constructor <;> simp_all
  case serveFails =>
    split at hs <;> cases hs
    constructor <;> simp_all
  case shutdown =>
    split at hs <;> cases hs
    constructor <;> simp_all
  case drained =>
    split at hs <;> cases hs
    constructor <;> simp_all
  case serveReturns =>
    split at hs <;> cases hs
    constructor <;> simp_all
  case gotExit =>
    split at hs <;> first | cases hs | skip
    all_goals constructor <;> simp_all
  case closeDb =>
    split at hs <;> first | cases hs | skip
    all_goals constructor <;> simp_all
  case stopAgain =>
    split at hs <;> first | cases hs | skip
    all_goals constructor <;> simp_all
  case finish =>
    split at hs <;> first | cases hs | skip
    split at hs <;> cases hs
    constructor <;> simp_all

theorem inv_execs (es : List Ev) : ∀ s t, Inv s → execs s es = some t → Inv t := by
  induction es with
  | nil => intro s t h hs; cases hs; exact h
  | cons e es ih =>
    intro s t h hs
    have hs' : (exec s e).bind (execs · es) = some t := hs
    cases h1 : exec s e with
    | none => rw [h1] at hs'; cases hs'
    | some u =>
      rw [h1] at hs'
      exact ih u t (inv_step h h1) hs'

/-- The database has been closed (the deferred call of line 93 is done). -/
def dbIsClosed (s : St) : Prop := ∃ e, s.main = .dbClosed e ∨ s.main = .lastStop e ∨ s.main = .finished e

/-- Without a failure of the listener, `Serve` returns only after all requests. -/
theorem quiet (es : List Ev) : ∀ s t, Inv s → (∀ e, s.run = .returned e → s.srv = .stopped ∧ s.inflight = 0) → Ev.serveFails ∉ es → execs s es = some t →
    ∀ e, t.run = .returned e → t.srv = .stopped ∧ t.inflight = 0 := by
  induction es with
  | nil => intro s t _ h _ hs; cases hs; exact h
  | cons e es ih =>
    intro s t h hq hn hs
    have hs' : (exec s e).bind (execs · es) = some t := hs
    cases h1 : exec s e with
    | none => rw [h1] at hs'; cases hs'
    | some u =>
      rw [h1] at hs'
      refine ih u t (inv_step h h1) ?_ (fun hm => hn (List.mem_cons_of_mem _ hm)) hs'
      have hne : e ≠ .serveFails := fun he => hn (he ▸ List.mem_cons_self)
      clear ih hs' hs hn
      obtain ⟨cancelled, srv, inflight, run, main⟩ := s
      obtain ⟨i1, i2, i3, i4, i5, i6, i7, i8⟩ := h
      cases e <;> simp only [exec] at h1
      case serveFails => exact absurd rfl hne
      case cancel => cases h1; exact hq
      all_goals (split at h1 <;> first | cases h1 | skip)
      all_goals first | (split at h1 <;> cases h1) | skip
      all_goals first | exact hq | exact fun e he => ⟨rfl, (hq e he).2⟩ | skip
      all_goals simp_all

/-- C201: as long as the listener does not fail, no request is in progress when the database is closed, and none comes in later. -/
theorem C201_db_partial (es : List Ev) (t : St) (hn : Ev.serveFails ∉ es) (hs : execs .init es = some t) (hd : dbIsClosed t) : t.inflight = 0 ∧ exec t .request = none := by
  have hi := inv_execs es _ _ inv_init hs
  obtain ⟨e, he⟩ := hd
  have hr := hi.left e (.inr he)
  have hq := quiet es .init t inv_init (by intro e h; cases h) hn hs e hr
  refine ⟨hq.2, ?_⟩
  simp [exec, hq.1]

/-- C201 is violated: if the listener fails, the deferred `DBClose` runs before the deferred `GracefulStop`, and the requests in progress meet a closed database. -/
theorem C201_db_violated : ∃ es t, execs .init es = some t ∧ dbIsClosed t ∧ t.inflight = 1 ∧ (exec t .request).isSome :=
  ⟨[.serve, .request, .serveFails, .gotExit, .closeDb], ⟨false, .serving, 1, .returned true, .dbClosed true⟩, by decide +kernel, ⟨true, .inl rfl⟩, rfl, rfl⟩

/-- The hypotheses of `C201_db_partial` are met: two requests in progress at the signal are answered first. -/
example : ∃ t, execs .init [.serve, .request, .request, .cancel, .shutdown, .reply, .reply, .drained, .serveReturns, .gotExit, .closeDb] = some t ∧ dbIsClosed t :=
  ⟨⟨true, .stopped, 0, .returned false, .dbClosed false⟩, by decide +kernel, false, .inl rfl⟩

/-- Once `Serve` has been called before the end, it has no error to return unless the listener fails. -/
theorem noErr (es : List Ev) : ∀ s t, s.run ≠ .notStarted → s.run ≠ .returned true → Ev.serveFails ∉ es → execs s es = some t → t.run ≠ .notStarted ∧ t.run ≠ .returned true := by
  induction es with
  | nil => intro s t h h' _ hs; cases hs; exact ⟨h, h'⟩
  | cons e es ih =>
    intro s t h h' hn hs
    have hs' : (exec s e).bind (execs · es) = some t := hs
    cases h1 : exec s e with
    | none => rw [h1] at hs'; cases hs'
    | some u =>
      rw [h1] at hs'
      have hne : e ≠ .serveFails := fun he => hn (he ▸ List.mem_cons_self)
      have hu : u.run ≠ .notStarted ∧ u.run ≠ .returned true := by
        clear ih hs' hs hn
        obtain ⟨cancelled, srv, inflight, run, main⟩ := s
        cases e <;> simp only [exec] at h1
        case serveFails => exact absurd rfl hne
        case cancel => cases h1; exact ⟨h, h'⟩
        all_goals (split at h1 <;> first | cases h1 | skip)
        all_goals first | (split at h1 <;> cases h1) | skip
        all_goals simp_all
      exact ih u t hu.1 hu.2 (fun hm => hn (List.mem_cons_of_mem _ hm)) hs'

theorem execs_append (es fs : List Ev) : ∀ s, execs s (es ++ fs) = (execs s es).bind (execs · fs) := by
  induction es with
  | nil => intro s; rfl
  | cons e es ih =>
    intro s
    show (exec s e).bind (execs · (es ++ fs)) = ((exec s e).bind (execs · es)).bind (execs · fs)
    cases exec s e with
    | none => rfl
    | some u => exact ih u

/-- C202: if `Serve` is called before the shutdown and the listener does not fail, `Run` returns no error. -/
theorem C202_status_partial (es fs : List Ev) (t : St) (e : Bool) (h1 : Ev.shutdown ∉ es) (hn : Ev.serveFails ∉ es ++ fs) (hs : execs .init (es ++ .serve :: fs) = some t) (hf : t.main = .finished e) :
    e = false := by
  have hi := inv_execs _ _ _ inv_init hs
  have hr := hi.left e (.inr (.inr (.inr hf)))
  rw [execs_append] at hs
  cases hu : execs .init es with
  | none => rw [hu] at hs; cases hs
  | some u =>
    rw [hu] at hs
    have hs' : (exec u .serve).bind (execs · fs) = some t := hs
    -- before the shutdown the server is not stopped as long as `Serve` has not returned
    have key : ∀ es : List Ev, ∀ s u, s.srv ≠ .stopped → (∀ b, s.run ≠ .returned b) → s.main = .select → Ev.shutdown ∉ es → Ev.serveFails ∉ es → execs s es = some u →
        u.srv ≠ .stopped ∧ (∀ b, u.run ≠ .returned b) ∧ u.main = .select := by
      intro es
      induction es with
      | nil => intro s u a b c _ _ hs; cases hs; exact ⟨a, b, c⟩
      | cons e es ih =>
        intro s u a b c n1 n2 hs
        have hs2 : (exec s e).bind (execs · es) = some u := hs
        cases h2 : exec s e with
        | none => rw [h2] at hs2; cases hs2
        | some v =>
          rw [h2] at hs2
          have e1 : e ≠ .serveFails := fun he => n2 (he ▸ List.mem_cons_self)
          have e2 : e ≠ .shutdown := fun he => n1 (he ▸ List.mem_cons_self)
          have hv : v.srv ≠ .stopped ∧ (∀ b, v.run ≠ .returned b) ∧ v.main = .select := by
            clear ih hs2 hs n1 n2
            obtain ⟨cancelled, srv, inflight, run, main⟩ := s
            cases e <;> simp only [exec] at h2
            case serveFails => exact absurd rfl e1
            case shutdown => exact absurd rfl e2
            case cancel => cases h2; exact ⟨a, b, c⟩
            all_goals (split at h2 <;> first | cases h2 | skip)
            all_goals first | (split at h2 <;> cases h2) | skip
            all_goals simp_all
          exact ih v u hv.1 hv.2.1 hv.2.2 (fun hm => n1 (List.mem_cons_of_mem _ hm)) (fun hm => n2 (List.mem_cons_of_mem _ hm)) hs2
    have hk := key es .init u (by decide) (by intro b h; cases h) rfl h1 (fun hm => hn (List.mem_append_left _ hm)) hu
    cases h3 : exec u .serve with
    | none => rw [h3] at hs'; cases hs'
    | some v =>
      rw [h3] at hs'
      have hv : v.run = .serving := by
        obtain ⟨cancelled, srv, inflight, run, main⟩ := u
        simp only [exec] at h3
        split at h3 <;> first | cases h3 | skip
        · simp_all
        · rfl
      have hne := noErr fs v t (by simp [hv]) (by simp [hv]) (fun hm => hn (List.mem_append_right _ hm)) hs'
      cases e with
      | false => rfl
      | true => exact absurd hr hne.2

/-- C202 is violated: a signal that comes before the goroutine calls `Serve` makes `Run` return an error. -/
theorem C202_status_violated : ∃ es t, Ev.serveFails ∉ es ∧ execs .init es = some t ∧ t.main = .finished true :=
  ⟨[.cancel, .shutdown, .drained, .serve, .gotExit, .closeDb, .stopAgain, .finish], ⟨true, .stopped, 0, .returned true, .finished true⟩, by decide, by decide +kernel, rfl⟩

/-- The hypotheses of `C202_status_partial` are met. -/
example : ∃ t, execs .init ([.cancel] ++ .serve :: [.request, .shutdown, .reply, .drained, .serveReturns, .gotExit, .closeDb, .stopAgain, .finish]) = some t ∧ t.main = .finished false :=
  ⟨⟨true, .stopped, 0, .returned false, .finished false⟩, by decide +kernel, rfl⟩

/-- The steps that the log itself takes (answers included). -/
def own : Ev → Bool
  | .cancel => false
  | .request => false
  | .serveFails => false
  | _ => true

/-- How many own steps are left, at most. -/
def left (s : St) : Nat :=
  s.inflight + (match s.run with | .notStarted => 2 | .serving => 1 | .returned _ => 0) +
    (match s.main with | .select => 6 | .stopping => 5 | .waiting => 4 | .leaving _ => 3 | .dbClosed _ => 2 | .lastStop _ => 1 | .finished _ => 0)

theorem left_step {s t : St} {e : Ev} (ho : own e = true) (hs : exec s e = some t) : left t + 1 ≤ left s := by
  obtain ⟨cancelled, srv, inflight, run, main⟩ := s
  cases e <;> simp only [exec] at hs <;> first | (simp [own] at ho; done) | skip
  all_goals (split at hs <;> first | cases hs | skip)
  all_goals first | (split at hs <;> cases hs) | skip
  all_goals simp_all [left]
  all_goals omega

theorem cancelled_step {s t : St} {e : Ev} (hc : s.cancelled = true) (hs : exec s e = some t) : t.cancelled = true := by
  obtain ⟨cancelled, srv, inflight, run, main⟩ := s
  cases e <;> simp only [exec] at hs
  case cancel => cases hs; rfl
  all_goals (split at hs <;> first | cases hs | skip)
  all_goals first | (split at hs <;> cases hs) | skip
  all_goals simp_all

theorem not_stuck {s : St} (h : Inv s) (hc : s.cancelled = true) (hst : ∀ e, own e = true → exec s e = none) : ∃ e, s.main = .finished e := by
  have a1 := hst .serve rfl
  have a2 := hst .reply rfl
  have a3 := hst .shutdown rfl
  have a4 := hst .drained rfl
  have a5 := hst .serveReturns rfl
  have a6 := hst .gotExit rfl
  have a7 := hst .closeDb rfl
  have a8 := hst .stopAgain rfl
  have a9 := hst .finish rfl
  obtain ⟨cancelled, srv, inflight, run, main⟩ := s
  obtain ⟨h1, h2, h3, h4, h5, h6, h7, h8⟩ := h
  have hi : inflight = 0 := by
    simp only [exec] at a2
    split at a2
    · cases a2
    · simp_all
  cases main <;> cases run <;> cases srv <;> simp_all [exec]

/-- C203: after the signal the log ends by itself: in every state reached, however the goroutines are scheduled, it takes at most eight steps more than there are requests to answer, and if it can take no
further one then `Run` has returned. Requests cannot put it off: none is accepted after the shutdown has begun. -/
theorem C203_ends (es0 : List Ev) (s : St) (h0 : execs .init es0 = some s) (hc : s.cancelled = true) (es : List Ev) (t : St) (ho : ∀ e ∈ es, own e = true) (hs : execs s es = some t) :
    es.length ≤ s.inflight + 8 ∧ ((∀ e, own e = true → exec t e = none) → ∃ e, t.main = .finished e) ∧ (Ev.shutdown ∈ es → exec t .request = none) := by
  have key : ∀ es : List Ev, ∀ s t, Inv s → s.cancelled = true → (∀ e ∈ es, own e = true) → execs s es = some t →
      es.length + left t ≤ left s ∧ Inv t ∧ t.cancelled = true ∧ (s.srv = .stopped ∨ Ev.shutdown ∈ es → t.srv = .stopped) := by
    intro es
    induction es with
    | nil => intro s t h hc _ hs; cases hs; exact ⟨by simp, h, hc, by rintro (h | h); exact h; cases h⟩
    | cons e es ih =>
      intro s t h hc ho hs
      have hs' : (exec s e).bind (execs · es) = some t := hs
      cases h1 : exec s e with
      | none => rw [h1] at hs'; cases hs'
      | some u =>
        rw [h1] at hs'
        have hoe := ho e List.mem_cons_self
        obtain ⟨k1, k2, k3, k4⟩ := ih u t (inv_step h h1) (cancelled_step hc h1) (fun e he => ho e (List.mem_cons_of_mem _ he)) hs'
        have hl := left_step hoe h1
        refine ⟨by simp only [List.length_cons]; omega, k2, k3, ?_⟩
        have st : s.srv = .stopped → u.srv = .stopped := by
          intro hst
          clear ih hs' hs k1 k4 hl
          obtain ⟨cancelled, srv, inflight, run, main⟩ := s
          cases e <;> simp only [exec] at h1
          case cancel => cases h1; exact hst
          all_goals (split at h1 <;> first | cases h1 | skip)
          all_goals first | (split at h1 <;> cases h1) | skip
          all_goals simp_all
        rintro (h2 | h2)
        · exact k4 (.inl (st h2))
        · rcases List.mem_cons.1 h2 with h2 | h2
          · subst h2
            refine k4 (.inl ?_)
            simp only [exec] at h1
            split at h1 <;> cases h1
            rfl
          · exact k4 (.inr h2)
  obtain ⟨k1, k2, k3, k4⟩ := key es s t (inv_execs es0 _ _ inv_init h0) hc ho hs
  refine ⟨?_, fun h => not_stuck k2 k3 h, fun h => by simp [exec, k4 (.inr h)]⟩
  have : left s ≤ s.inflight + 8 := by
    unfold left
    cases s.run <;> cases s.main <;> simp
  omega

/-- The hypotheses of `C203_ends` are met. -/
example : ∃ s t, execs .init [.serve, .request, .request, .cancel] = some s ∧ s.cancelled = true ∧ execs s [.shutdown, .reply, .reply, .drained, .serveReturns, .gotExit, .closeDb, .stopAgain, .finish] = some t ∧
    t.main = .finished false :=
  ⟨⟨true, .serving, 2, .serving, .select⟩, ⟨true, .stopped, 0, .returned false, .finished false⟩, by decide +kernel, rfl, by decide +kernel, rfl⟩

end Fpki.LogServe
