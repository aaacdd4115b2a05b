import Verif.Model.Source
/-!
# C97: a source that gives the values of a slice

On every run the source should give the values of the slice, in order, each once, and then end; whatever happened in earlier runs.
-/
namespace Fpki.Source
variable {α : Type}

/-! ## Specification -/

/-- The feeder will not look at the field again before something is received from it: it has ended, or is blocked in sending. -/
def Feeder.quiet : Feeder α → Prop
  | .sending .. => True
  | .done _ => True
  | _ => False

/-- Histories in which `Resume` is called only while no feeder of an earlier run is on its way to its next value. -/
inductive Calm : St α → Prop
  | init (slice : List α) : Calm (.init slice)
  | step (s : St α) (ev : Ev α) (s' : St α) : Calm s → (∀ (_ : ev matches .resume), ∀ f ∈ s.feeders, f.quiet) → exec s ev = some s' → Calm s'

/-- All histories. -/
def Reach (slice : List α) (s : St α) : Prop := ∃ es, run (.init slice) es = some s

/-! ## Lemmas -/

/-- Of feeders of earlier runs only blocked ones are left, on channels that nobody reads. -/
def Old (field : Nat) : Feeder α → Prop
  | .sending _ ch _ _ => ch < field
  | .done _ => True
  | _ => False

def Cur (s : St α) : Feeder α → Prop
  | .fresh => s.got = [] ∧ s.closed s.field = false
  | .between all rest => all = s.got ++ rest ∧ s.closed s.field = false
  | .sending all ch v rest => all = s.got ++ v :: rest ∧ ch = s.field ∧ s.closed s.field = false
  | .done all => all = s.got ∧ s.closed s.field = true

structure Inv (s : St α) : Prop where
  panic : s.panic = false
  later : ∀ c, s.field < c → s.closed c = false
  ended : s.ended = true → s.closed s.field = true
  feeders : (s.feeders = [] ∧ s.field = 0 ∧ s.closed 0 = false ∧ s.got = []) ∨ ∃ old cur, s.feeders = old ++ [cur] ∧ (∀ f ∈ old, Old s.field f) ∧ Cur s cur

theorem inv_init (slice : List α) : Inv (St.init slice) := ⟨rfl, fun _ _ => rfl, (by intro h; cases h), .inl ⟨rfl, rfl, rfl, rfl⟩⟩

theorem get_split {old : List (Feeder α)} {cur x : Feeder α} {f : Nat} (h : (old ++ [cur])[f]? = some x) :
    (x ∈ old ∧ f < old.length) ∨ (x = cur ∧ f = old.length) := by
  by_cases hf : f < old.length
  · rw [List.getElem?_append_left hf] at h
    exact .inl ⟨List.mem_of_getElem? h, hf⟩
  · rw [List.getElem?_append_right (by omega)] at h
    have : f - old.length = 0 := by
      rcases Nat.eq_zero_or_pos (f - old.length) with h0 | h0
      · exact h0
      · rw [List.getElem?_eq_none (by simp; omega)] at h; cases h
    rw [this] at h
    simp at h
    exact .inr ⟨h.symm, by omega⟩

theorem set_last (old : List (Feeder α)) (cur x : Feeder α) : (old ++ [cur]).set old.length x = old ++ [x] := by simp

theorem inv_step {s s' : St α} {ev : Ev α} (h : Inv s) (hq : ∀ (_ : ev matches .resume), ∀ f ∈ s.feeders, f.quiet) (he : exec s ev = some s') : Inv s' := by
  obtain ⟨h1, h2, h3, h4⟩ := h
  cases ev with
  | set vals =>
    simp only [exec, h1] at he; cases he
    exact ⟨rfl, h2, h3, h4⟩
  | resume =>
    simp only [exec, h1] at he; cases he
    refine ⟨rfl, fun c hc => h2 c (Nat.lt_of_succ_lt hc), (by intro h; cases h), .inr ⟨s.feeders, .fresh, rfl, ?_, rfl, h2 _ (Nat.lt_succ_self _)⟩⟩
    intro f hf
    have hqf := hq rfl f hf
    rcases h4 with h4 | ⟨old, cur, e, ho, hc⟩
    · rw [h4.1] at hf; cases hf
    · rw [e] at hf
      rcases List.mem_append.mp hf with hm | hm
      · have := ho f hm
        cases f with
        | sending all ch v rest => exact Nat.lt_succ_of_lt this
        | done all => exact True.intro
        | fresh => exact this.elim
        | between a b => exact this.elim
      · rw [List.mem_singleton.mp hm] at hqf ⊢
        cases cur with
        | sending all ch v rest => rw [hc.2.1]; exact Nat.lt_succ_self _
        | done all => exact True.intro
        | fresh => exact hqf.elim
        | between a b => exact hqf.elim
  | start f =>
    simp only [exec, h1] at he
    split at he
    · rename_i _ _ hf
      cases he
      rcases h4 with h4 | ⟨old, cur, e, ho, hc⟩
      · rw [h4.1] at hf; cases hf
      · rw [e] at hf
        rcases get_split hf with ⟨hm, _⟩ | ⟨hx, hl⟩
        · exact (ho _ hm).elim
        · subst hx
          refine ⟨rfl, h2, h3, .inr ⟨old, .between s.slice s.slice, ?_, ho, ?_⟩⟩
          · show s.feeders.set f _ = _
            rw [e, hl, set_last]
          · obtain ⟨c1, c2⟩ := hc
            exact ⟨by show s.slice = s.got ++ s.slice; rw [c1]; rfl, c2⟩
    · cases he
  | eval f =>
    simp only [exec, h1] at he
    split at he
    · rename_i all v rest _ hf
      rcases h4 with h4 | ⟨old, cur, e, ho, hc⟩
      · rw [h4.1] at hf; cases hf
      · rw [e] at hf
        rcases get_split hf with ⟨hm, _⟩ | ⟨hx, hl⟩
        · exact (ho _ hm).elim
        · subst hx
          obtain ⟨c1, c2⟩ := hc
          rw [c2] at he
          cases he
          refine ⟨rfl, h2, h3, .inr ⟨old, .sending all s.field v rest, ?_, ho, c1, rfl, c2⟩⟩
          show s.feeders.set f _ = _
          rw [e, hl, set_last]
    · rename_i all _ hf
      rcases h4 with h4 | ⟨old, cur, e, ho, hc⟩
      · rw [h4.1] at hf; cases hf
      · rw [e] at hf
        rcases get_split hf with ⟨hm, _⟩ | ⟨hx, hl⟩
        · exact (ho _ hm).elim
        · subst hx
          obtain ⟨c1, c2⟩ := hc
          have hno : s.feeders.any (isSendingOn s.field) = false := by
            rw [e, List.any_eq_false]
            intro x hx
            rcases List.mem_append.mp hx with hx | hx
            · have := ho x hx
              cases x with
              | sending all ch v rest =>
                have hlt : ch < s.field := this
                simp only [isSendingOn, beq_iff_eq]; omega
              | _ => simp [isSendingOn]
            · rw [List.mem_singleton.mp hx]; simp [isSendingOn]
          rw [c2, hno] at he
          cases he
          refine ⟨rfl, ?_, ?_, .inr ⟨old, .done all, ?_, ho, ?_, ?_⟩⟩
          · intro c hc'
            show (if c = s.field then true else s.closed c) = false
            rw [if_neg (Nat.ne_of_gt hc')]; exact h2 c hc'
          · intro _; show (if s.field = s.field then true else s.closed s.field) = true; rw [if_pos rfl]
          · show s.feeders.set f _ = _
            rw [e, hl, set_last]
          · show all = s.got; rw [c1, List.append_nil]
          · show (if s.field = s.field then true else s.closed s.field) = true; rw [if_pos rfl]
    · cases he
  | recv f =>
    simp only [exec, h1] at he
    split at he
    · rename_i all ch v rest _ hf
      split at he
      · rename_i hch
        cases he
        rcases h4 with h4 | ⟨old, cur, e, ho, hc⟩
        · rw [h4.1] at hf; cases hf
        · rw [e] at hf
          rcases get_split hf with ⟨hm, _⟩ | ⟨hx, hl⟩
          · have : ch < s.field := ho _ hm
            omega
          · subst hx
            obtain ⟨c1, _, c2⟩ := hc
            refine ⟨rfl, h2, h3, .inr ⟨old, .between all rest, ?_, ho, ?_, c2⟩⟩
            · show s.feeders.set f _ = _
              rw [e, hl, set_last]
            · show all = (s.got ++ [v]) ++ rest
              rw [c1, List.append_assoc]; rfl
      · cases he
    · cases he
  | recvEnd =>
    simp only [exec, h1] at he
    split at he
    · rename_i hc
      simp at hc
      cases he
      exact ⟨rfl, h2, fun _ => hc, h4⟩
    · cases he

theorem calm_inv {s : St α} (h : Calm s) : Inv s := by
  induction h with
  | init slice => exact inv_init slice
  | step s ev s' _ hq he ih => exact inv_step ih hq he

/-- The slice that the feeder of the current run has seen when it began. -/
def seen (s : St α) : Option (List α) :=
  match s.feeders.getLast? with
  | some (.between all _) => some all
  | some (.sending all _ _ _) => some all
  | some (.done all) => some all
  | _ => none

/-! ## Theorems -/

/-- **C97** (the values, in order, each once): if `Resume` is called only while no feeder of an earlier run is on its way to its next value, there is no panic; at any time the source has given the first
values of the slice, and when it says `NoMoreData` it has given all. -/
theorem C97_values_partial {s : St α} (h : Calm s) : s.panic = false ∧ (∀ all, seen s = some all → ∃ rest, all = s.got ++ rest) ∧ (seen s = none → s.got = []) ∧
    (s.ended = true → seen s = some s.got) := by
  obtain ⟨h1, h2, h3, h4⟩ := calm_inv h
  refine ⟨h1, ?_, ?_, ?_⟩
  · intro all ha
    rcases h4 with h4 | ⟨old, cur, e, ho, hc⟩
    · simp [seen, h4.1] at ha
    · simp only [seen, e, List.getLast?_append, List.getLast?_singleton, Option.some_or] at ha
      cases cur with
      | fresh => cases ha
      | between a r => cases ha; exact ⟨r, hc.1⟩
      | sending a c v r => cases ha; exact ⟨v :: r, hc.1⟩
      | done a => cases ha; exact ⟨[], by rw [List.append_nil]; exact hc.1⟩
  · intro ha
    rcases h4 with h4 | ⟨old, cur, e, ho, hc⟩
    · exact h4.2.2.2
    · simp only [seen, e, List.getLast?_append, List.getLast?_singleton, Option.some_or] at ha
      cases cur with
      | fresh => exact hc.1
      | between a r => cases ha
      | sending a c v r => cases ha
      | done a => cases ha
  · intro he
    have hcl := h3 he
    rcases h4 with h4 | ⟨old, cur, e, ho, hc⟩
    · rw [h4.2.1, h4.2.2.1] at hcl; cases hcl
    · simp only [seen, e, List.getLast?_append, List.getLast?_singleton, Option.some_or]
      cases cur with
      | fresh => rw [hc.2] at hcl; cases hcl
      | between a r => rw [hc.2] at hcl; cases hcl
      | sending a c v r => rw [hc.2.2] at hcl; cases hcl
      | done a => rw [hc.1]

/-- **C97** (no deadlock): in such histories, as long as a run has not ended, the feeder or the source can make a step. -/
theorem C97_progress_partial {s : St α} (h : Calm s) (hr : s.feeders ≠ []) (he : s.ended = false) :
    ∃ ev s', exec s ev = some s' ∧ (∀ vals, ev ≠ .set vals) ∧ ev ≠ .resume := by
  obtain ⟨h1, h2, h3, h4⟩ := calm_inv h
  rcases h4 with h4 | ⟨old, cur, e, ho, hc⟩
  · exact absurd h4.1 hr
  · have hget : s.feeders[old.length]? = some cur := by rw [e]; simp
    cases cur with
    | fresh =>
      refine ⟨.start old.length, ?_⟩
      cases hx : exec s (.start old.length) with
      | none => simp only [exec, h1, hget] at hx; cases hx
      | some s' => exact ⟨s', rfl, (by intro _ h; cases h), by intro h; cases h⟩
    | between a r =>
      cases r with
      | nil =>
        refine ⟨.eval old.length, ?_⟩
        cases hx : exec s (.eval old.length) with
        | none => simp only [exec, h1, hget] at hx; split at hx <;> cases hx
        | some s' => exact ⟨s', rfl, (by intro _ h; cases h), by intro h; cases h⟩
      | cons v r =>
        refine ⟨.eval old.length, ?_⟩
        cases hx : exec s (.eval old.length) with
        | none => simp only [exec, h1, hget] at hx; split at hx <;> cases hx
        | some s' => exact ⟨s', rfl, (by intro _ h; cases h), by intro h; cases h⟩
    | sending a c v r =>
      refine ⟨.recv old.length, { s with feeders := s.feeders.set old.length (.between a r), got := s.got ++ [v] }, ?_, (by intro _ h; cases h), by intro h; cases h⟩
      simp only [exec, h1, hget, hc.2.1, if_true]
    | done a =>
      refine ⟨.recvEnd, { s with ended := true }, ?_, (by intro _ h; cases h), by intro h; cases h⟩
      have hcl : s.closed s.field = true := hc.2
      simp [exec, h1, hcl]

/-- **C97** (runs that went to their end): the case that is always met if every run before has ended. -/
theorem C97_ended_quiet {s : St α} (h : Calm s) (he : s.ended = true) : ∀ f ∈ s.feeders, f.quiet := by
  obtain ⟨h1, h2, h3, h4⟩ := calm_inv h
  have hcl := h3 he
  intro f hf
  rcases h4 with h4 | ⟨old, cur, e, ho, hc⟩
  · rw [h4.1] at hf; cases hf
  · rw [e] at hf
    rcases List.mem_append.mp hf with hm | hm
    · have := ho f hm
      cases f with
      | sending all ch v rest => exact True.intro
      | done all => exact True.intro
      | fresh => exact this.elim
      | between a b => exact this.elim
    · rw [List.mem_singleton.mp hm]
      cases cur with
      | fresh => rw [hc.2] at hcl; cases hcl
      | between a r => rw [hc.2] at hcl; cases hcl
      | sending a c v r => exact True.intro
      | done a => exact True.intro

/-! ## Violations -/

/-- The first run is given up after its first value; the feeder then sends the other values in the second run. -/
def mixed : List (Ev Nat) := [.resume, .start 0, .eval 0, .recv 0, .resume, .start 1, .eval 0, .recv 0, .eval 1, .recv 1, .eval 0, .recv 0, .eval 0, .recvEnd]

/-- **C97** is violated after a run that was given up: the second run gives 2, 1, 3 and says that there is no more data; the slice is 1, 2, 3. -/
theorem C97_mixed_violated : ∃ s, Reach [1, 2, 3] s ∧ s.slice = [1, 2, 3] ∧ s.got = [2, 1, 3] ∧ s.ended = true ∧ s.panic = false := by
  refine ⟨(run (.init [1, 2, 3]) mixed).get (by decide +kernel), ⟨mixed, (Option.some_get _).symm⟩, by decide +kernel, by decide +kernel, by decide +kernel, by decide +kernel⟩

/-- The same, and the feeder of the second run is sending when the one of the first run closes the channel. -/
def crash : List (Ev Nat) := [.resume, .start 0, .eval 0, .recv 0, .resume, .start 1, .eval 1, .eval 0]

/-- **C97** (no panic) is violated: a slice of one value, a run given up after it, and another `Resume`: the program ends in a panic. -/
theorem C97_panic_violated : ∃ s, Reach [1] s ∧ s.panic = true := by
  refine ⟨(run (.init [1]) crash).get (by decide +kernel), ⟨crash, (Option.some_get _).symm⟩, by decide +kernel⟩

/-- After a step the first feeder is still blocked, or there was a panic. -/
theorem blocked_step {s s' : St α} {ev : Ev α} {all : List α} {ch : Nat} {v : α} {rest : List α} {f : Nat} (h : s.feeders[f]? = some (.sending all ch v rest)) (hlt : ch < s.field)
    (he : exec s ev = some s') : s'.feeders[f]? = some (.sending all ch v rest) ∧ ch < s'.field := by
  have hset : ∀ g x y, s.feeders[g]? = some y → y ≠ .sending all ch v rest → (s.feeders.set g x)[f]? = some (.sending all ch v rest) := by
    intro g x y hg hy
    have hne : g ≠ f := by rintro rfl; rw [h] at hg; exact hy (Option.some.inj hg).symm
    rw [List.getElem?_set_ne hne]; exact h
  cases ev with
  | set vals => simp only [exec] at he; split at he <;> cases he; exact ⟨h, hlt⟩
  | resume =>
    simp only [exec] at he; split at he <;> cases he
    refine ⟨?_, Nat.lt_succ_of_lt hlt⟩
    show (s.feeders ++ [.fresh])[f]? = _
    rw [List.getElem?_append_left (List.getElem?_eq_some_iff.mp h).1]; exact h
  | start g =>
    simp only [exec] at he
    split at he
    · rename_i hg; cases he; exact ⟨hset g _ _ hg (by intro h; cases h), hlt⟩
    · cases he
  | eval g =>
    simp only [exec] at he
    split at he
    · rename_i hg
      split at he <;> cases he
      · exact ⟨h, hlt⟩
      · exact ⟨hset g _ _ hg (by intro h; cases h), hlt⟩
    · rename_i hg
      split at he <;> cases he
      · exact ⟨h, hlt⟩
      · exact ⟨hset g _ _ hg (by intro h; cases h), hlt⟩
    · cases he
  | recv g =>
    simp only [exec] at he
    split at he
    · rename_i all' ch' v' rest' _ hg
      split at he
      · rename_i hch
        cases he
        refine ⟨hset g _ _ hg ?_, hlt⟩
        intro h; cases h; omega
      · cases he
    · cases he
  | recvEnd => simp only [exec] at he; split at he <;> cases he; exact ⟨h, hlt⟩

/-- **C97** (goroutines end) is violated: a feeder that is blocked when its run is given up stays for ever, whatever is done afterwards. -/
theorem C97_leak_violated {s : St α} {all : List α} {v : α} {rest : List α} {f : Nat} (h : s.feeders[f]? = some (.sending all s.field v rest)) (hp : s.panic = false) (es : List (Ev α)) {s' : St α}
    (hr : run s (.resume :: es) = some s') : s'.feeders[f]? = some (.sending all s.field v rest) := by
  have key : ∀ (es : List (Ev α)) (t : St α), t.feeders[f]? = some (.sending all s.field v rest) → s.field < t.field → ∀ t', run t es = some t' → t'.feeders[f]? = some (.sending all s.field v rest) := by
    intro es
    induction es with
    | nil => intro t h1 _ t' ht; cases ht; exact h1
    | cons e es ih =>
      intro t h1 h2 t' ht
      simp only [run, Option.bind_eq_some_iff] at ht
      obtain ⟨t1, h3, h4⟩ := ht
      have := blocked_step h1 h2 h3
      exact ih t1 this.1 this.2 t' h4
  simp only [run, Option.bind_eq_some_iff] at hr
  obtain ⟨s1, h1, h2⟩ := hr
  simp only [exec, hp] at h1
  cases h1
  refine key es _ ?_ (Nat.lt_succ_self _) s' h2
  show (s.feeders ++ [.fresh])[f]? = _
  rw [List.getElem?_append_left (List.getElem?_eq_some_iff.mp h).1]; exact h

/-! ## The hypotheses can be met -/

/-- A run that is given up while the feeder is blocked, another slice, and a run to the end. -/
def quietTrace : List (Ev Nat) := [.resume, .start 0, .eval 0, .recv 0, .eval 0, .set [7, 8], .resume, .start 1, .eval 1, .recv 1, .eval 1, .recv 1, .eval 1, .recvEnd]

def quietB : Feeder α → Bool
  | .sending .. => true
  | .done _ => true
  | _ => false

def calmOk (s : St α) : Ev α → Bool
  | .resume => s.feeders.all quietB
  | _ => true

def calmRun (s : St α) : List (Ev α) → Option (St α)
  | [] => some s
  | e :: es => if calmOk s e then (exec s e).bind fun s' => calmRun s' es else none

theorem calmRun_calm {es : List (Ev α)} {s s' : St α} (h : Calm s) (hr : calmRun s es = some s') : Calm s' := by
  induction es generalizing s with
  | nil => cases hr; exact h
  | cons e es ih =>
    simp only [calmRun] at hr
    split at hr
    · rename_i hc
      simp only [Option.bind_eq_some_iff] at hr
      obtain ⟨s1, h1, h2⟩ := hr
      refine ih (.step s e s1 h ?_ h1) h2
      intro hm f hf
      cases e with
      | resume =>
        have := List.all_eq_true.mp hc f hf
        cases f <;> first | exact True.intro | cases this
      | _ => cases hm
    · cases hr

/-- Such a history: the second run gives the new slice, although a feeder of the first one is still blocked. -/
example : ∃ s, Calm s ∧ s.feeders.length = 2 ∧ s.got = [7, 8] ∧ s.ended = true ∧ seen s = some [7, 8] := by
  refine ⟨(calmRun (.init [1, 2, 3]) quietTrace).get (by decide +kernel), calmRun_calm (.init [1, 2, 3]) (Option.some_get _).symm, by decide +kernel, by decide +kernel, by decide +kernel, by decide +kernel⟩

/-- A blocked feeder, as in `C97_leak_violated`. -/
example : ∃ s : St Nat, Reach [1, 2] s ∧ s.feeders[0]? = some (.sending [1, 2] s.field 2 []) ∧ s.panic = false ∧ (run s [.resume, .start 1]).isSome = true := by
  refine ⟨(run (.init [1, 2]) [.resume, .start 0, .eval 0, .recv 0, .eval 0]).get (by decide +kernel), ⟨_, (Option.some_get _).symm⟩, by decide +kernel, by decide +kernel, by decide +kernel⟩

end Fpki.Source
