import Verif.Lemmas.Again

/-
# C176, C177: a pipeline that is resumed again
-/

namespace Fpki.Again

/-- **C176.** If `Resume` is called again only when all goroutines of the stages have returned (in particular: in the first run), no channel is ever closed twice, no stage is
made to stop by a channel that nobody meant to close, -/
theorem C176_careful (n : Nat) (hn : 0 < n) (fails : Nat → Nat → Prop) (l : List Act) (s : St) (h : CarefulRun n fails (start n) l s) :
    s.panicked = false ∧ ∀ g i, i < n → g ≤ s.cur → s.pc g i ≠ .stopped := by
  have hi := inv_run h (inv_start n hn)
  refine ⟨hi.calm, fun g i hin hg hp => ?_⟩
  rcases Nat.lt_or_ge g s.cur with h' | h'
  · rcases hi.before g i h' with hb | hb <;> rw [hp] at hb <;> cases hb
  · have hg' : g = s.cur := by omega
    subst hg'
    exact (hi.runs i hin).2 hp

/-- **C176.** ... and every run comes to its end, whichever stages fail: until `Resume` is called again at most `4 * n + 1` steps are possible, and when none is left `Wait` has
returned and all goroutines have. -/
theorem C176_ends (n : Nat) (hn : 0 < n) (fails : Nat → Nat → Prop) (l : List Act) (s : St) (h : CarefulRun n fails (start n) l s) :
    (∀ l' s', CarefulRun n fails s l' s' → Act.resume ∉ l' → l'.length ≤ 4 * n + 1) ∧
      ((∀ a s', Step n fails s a s' → a = .resume) → s.waiting = false ∧ Quiet n s) := by
  have hi := inv_run h (inv_start n hn)
  refine ⟨fun l' s' hr hl => ?_, at_rest hn hi⟩
  have h1 := todo_run hr hi hl
  have h2 := todo_le s n
  have h3 : (if s.waiting then 1 else 0) ≤ 1 := by split <;> decide
  omega

/-- **C176.** When `Wait` returns, every stage has closed its error channel, and has nothing left to do but close its stop channel. -/
theorem C176_wait (n : Nat) (hn : 0 < n) (fails : Nat → Nat → Prop) (l : List Act) (s : St) (h : CarefulRun n fails (start n) l s) (hw : s.waiting = false) (i : Nat)
    (hin : i < n) : s.errCl s.cur i = true ∧ (s.pc s.cur i = .closeStop ∨ s.pc s.cur i = .gone) := by
  have hi := inv_run h (inv_start n hn)
  have he : s.errCl s.cur i = true := by
    induction i with
    | zero => exact hi.waited hw
    | succ i ih => exact hi.next i hin (Or.inr (ih (by omega)))
  exact ⟨he, (hi.err i).1 he⟩

/-- A step of `Step`, for the examples. -/
theorem careful_of_run {n : Nat} {fails : Nat → Nat → Prop} {s s' : St} {l : List Act} (h : Run n fails s l s') (hl : Act.resume ∉ l) : CarefulRun n fails s l s' := by
  induction h with
  | nil => exact .nil _
  | cons hs _ ih => exact .cons hs (fun ha => absurd (by rw [ha]; exact List.mem_cons_self) hl) (ih fun h => hl (List.mem_cons_of_mem _ h))

/-- All stages close their stop channels, one after the other. -/
theorem all_stop (n : Nat) (fails : Nat → Nat → Prop) (s : St) (hw : ∀ i, i < n → s.pc s.cur i = .closeStop) (k : Nat) (hk : k ≤ n) :
    ∃ l s', Run n fails s l s' ∧ Act.resume ∉ l ∧ s'.cur = s.cur ∧ s'.waiting = s.waiting ∧ (∀ i, i < k → s'.pc s.cur i = .gone) ∧
      (∀ i, k ≤ i → s'.pc s.cur i = s.pc s.cur i) ∧ (∀ g, g ≠ s.cur → s'.pc g = s.pc g) := by
  induction k with
  | zero => exact ⟨[], s, .nil s, by simp, rfl, rfl, fun i hi => absurd hi (by omega), fun _ _ => rfl, fun _ _ => rfl⟩
  | succ k ih =>
    obtain ⟨l, s', hr, hl, hc, hwt, h1, h2, h3⟩ := ih (by omega)
    have hst : Step n fails s' (.closeStop s.cur k) (doCloseStop s' s.cur k) := Step.closeStop s' s.cur k (by rw [h2 k (Nat.le_refl k)]; exact hw k (by omega))
    have hrun := hr.append (.cons hst (.nil _))
    refine ⟨_, _, hrun, by simp [hl], hc, hwt, ?_, ?_, ?_⟩
    · intro i hi
      show upd s'.pc s.cur k .gone s.cur i = .gone
      rw [upd_row]; split
      · rfl
      · exact h1 i (by omega)
    · intro i hi
      show upd s'.pc s.cur k .gone s.cur i = _
      rw [upd_row, if_neg (by omega)]; exact h2 i (by omega)
    · intro g hg
      exact (upd_old s'.pc _ hg).trans (h3 g hg)

theorem no_resume {n : Nat} {fails : Nat → Nat → Prop} {s s' : St} {l : List Act} (h : Run n fails s l s') : s.cur ≤ s'.cur ∧ (s'.cur = s.cur → Act.resume ∉ l) := by
  induction h with
  | nil => exact ⟨Nat.le_refl _, fun _ => by simp⟩
  | @cons s s1 s2 a l hs _ ih =>
    have : s.cur ≤ s1.cur ∧ (a = .resume → s.cur < s1.cur) := by
      cases hs <;> first | exact ⟨Nat.le_refl _, (fun h => by cases h)⟩ | exact ⟨Nat.le_succ _, fun _ => Nat.lt_succ_self _⟩
    refine ⟨by omega, fun hc hm => ?_⟩
    rcases List.mem_cons.1 hm with h | h
    · have := this.2 h.symm; omega
    · exact ih.2 (by omega) h

/-- The hypotheses are met by a pipeline that runs twice: the first run to its end, `Wait`, `Resume`, with all goroutines of the first run gone. -/
example (n : Nat) (hn : 0 < n) (fails : Nat → Nat → Prop) : ∃ l s, CarefulRun n fails (start n) l s ∧ s.cur = 1 ∧ Act.resume ∈ l ∧ ∀ i, i < n → s.pc 1 i = .work := by
  obtain ⟨l1, s1, r1, f1, h1⟩ := to_the_end n fails (start n) (fun i hi => if_pos ⟨rfl, hi⟩)
  have hc1 : s1.cur = 0 := f1.cur
  have w1 : Step n fails s1 .waitReturns { s1 with waiting := false } := Step.waitReturns s1 (by rw [f1.waiting]; rfl) (by rw [hc1]; exact (h1 0 hn).2)
  obtain ⟨l2, s2, r2, hl2, hc2, hw2, g2, _, o2⟩ := all_stop n fails { s1 with waiting := false } (fun i hi => by dsimp only; rw [hc1]; exact (h1 i hi).1) n (Nat.le_refl n)
  dsimp only at hc2 hw2 g2 o2
  have hc2' : s2.cur = 0 := hc2.trans hc1
  have c1 := careful_of_run (r1.append (.cons w1 r2)) (by
    have := (no_resume r1).2 f1.cur
    simp [this, hl2])
  have q : Quiet n s2 := by
    intro g i hin
    by_cases hg : g = s1.cur
    · subst hg; exact Or.inl (g2 i hin)
    · rw [o2 g hg, f1.old g (by rw [hc1] at hg; exact hg)]
      refine Or.inr (Or.inl ?_)
      show (if g = 0 ∧ i < n then Pc.work else Pc.idle) = .idle
      exact if_neg (fun hh => hg (by rw [hc1]; exact hh.1))
  have app : ∀ {t t' t'' : St} {l l' : List Act}, CarefulRun n fails t l t' → CarefulRun n fails t' l' t'' → CarefulRun n fails t (l ++ l') t'' := by
    intro t t' t'' l l' h h'
    induction h with
    | nil => exact h'
    | cons hs hq _ ih => exact .cons hs hq (ih h')
  refine ⟨_, doResume n s2, app c1 (.cons (Step.resume s2 hw2) (fun _ => q) (.nil _)), by show s2.cur + 1 = 1; rw [hc2'], by simp, fun i hi => ?_⟩
  show (if 1 = s2.cur + 1 ∧ i < n then Pc.work else s2.pc 1 i) = .work
  exact if_pos ⟨by rw [hc2'], hi⟩

/-- **C177, violated.** `Wait` has returned, `Resume` is called: the goroutine of the source of the first run is still about to close its stop channel, and closes the one of the
new run. For every pipeline there is a schedule in which the new run then closes that channel again, and the program panics, although no stage failed. -/
theorem C177_panic_violated (n : Nat) (hn : 0 < n) (fails : Nat → Nat → Prop) : ∃ l s, Run n fails (start n) l s ∧ s.panicked = true := by
  obtain ⟨l1, s1, r1, hc, hst, _, _, hwork, _⟩ := late_close n hn fails
  obtain ⟨l2, s2, r2, f2, h2⟩ := to_the_end n fails s1 (fun i hi => by rw [hc]; exact hwork i hi)
  rw [hc] at h2
  have r3 : Step n fails s2 (.closeStop 1 0) (doCloseStop s2 1 0) := Step.closeStop s2 1 0 (h2 0 hn).1
  refine ⟨_, _, (r1.append r2).append (.cons r3 (.nil _)), ?_⟩
  show (s2.panicked || s2.stopCl s2.cur 0) = true
  rw [f2.stop, f2.cur, hc, hst, Bool.or_true]

theorem hangs {n : Nat} {fails : Nat → Nat → Prop} {s s' : St} {l : List Act} (h : Run n fails s l s')
    (hi : s.waiting = true ∧ s.pc s.cur 0 = .stopped ∧ s.errCl s.cur 0 = false) : s'.waiting = true ∧ s'.cur = s.cur := by
  induction h with
  | nil => exact ⟨hi.1, rfl⟩
  | @cons s s1 s2 a l hs _ ih =>
    obtain ⟨hw, hp, he⟩ := hi
    have key : ∀ {i : Nat} {p : Pc}, s.pc s.cur i = p → p ≠ .stopped → 0 ≠ i := fun h hne h0 => hne (by subst h0; exact h.symm.trans hp)
    cases hs with
    | leave i hw' why =>
      exact ih ⟨hw, (by dsimp only; rw [upd_row, if_neg (key hw' (by decide))]; exact hp), he⟩
    | gotNext i hw' hn =>
      exact ih ⟨hw, (by dsimp only; rw [upd_row, if_neg (key hw' (by decide))]; exact hp), he⟩
    | closeErr i hw' =>
      exact ih ⟨hw, (by dsimp only; rw [upd_row, if_neg (key hw' (by decide))]; exact hp), (by dsimp only; rw [upd_row, if_neg (key hw' (by decide))]; exact he)⟩
    | closeStop g i hw' =>
      refine ih ⟨hw, ?_, he⟩
      show upd s.pc g i .gone s.cur 0 = .stopped
      rw [upd_other _ _ (fun hh => by rw [← hh.1, ← hh.2, hp] at hw'; cases hw')]; exact hp
    | stop i hw' hst =>
      refine ih ⟨hw, ?_, he⟩
      dsimp only; rw [upd_row]; split
      · rfl
      · exact hp
    | waitReturns hw' he' => rw [he] at he'; cases he'
    | resume hw' => rw [hw] at hw'; cases hw'

/-- **C177, violated.** ... and a schedule in which the source of the new run reads from the closed channel and returns, without closing anything: then `Wait` never returns,
whatever happens afterwards, although no stage failed. -/
theorem C177_hang_violated (n : Nat) (hn : 0 < n) (fails : Nat → Nat → Prop) :
    ∃ l s, Run n fails (start n) l s ∧ s.cur = 1 ∧ s.waiting = true ∧ ∀ l' s', Run n fails s l' s' → s'.waiting = true ∧ s'.cur = 1 := by
  obtain ⟨l1, s1, r1, hc, hst, hw, _, hwork, he⟩ := late_close n hn fails
  have r2 : Step n fails s1 (.stop 0) { s1 with pc := upd s1.pc s1.cur 0 .stopped } := Step.stop s1 0 (by rw [hc]; exact hwork 0 hn) (by rw [hc]; exact hst)
  refine ⟨_, _, r1.append (.cons r2 (.nil _)), hc, hw, fun l' s' h => ?_⟩
  have := hangs h ⟨hw, (by dsimp only; exact upd_same _ _ _ _), (by dsimp only; rw [hc]; exact he)⟩
  exact ⟨this.1, this.2.trans hc⟩

/-- **C177, what holds.** The first run, and every run that is started when all goroutines of the runs before have returned, does neither: no panic, no stage that stops by itself, and
as long as `Wait` has not returned something can still happen. -/
theorem C177_again_partial (n : Nat) (hn : 0 < n) (fails : Nat → Nat → Prop) (l : List Act) (s : St) (h : CarefulRun n fails (start n) l s) (hw : s.waiting = true) :
    s.panicked = false ∧ ∃ a s', Step n fails s a s' ∧ a ≠ .resume := by
  refine ⟨(C176_careful n hn fails l s h).1, ?_⟩
  refine Classical.byContradiction fun hno => ?_
  have := (C176_ends n hn fails l s h).2 (fun a s' hs => Classical.byContradiction fun ha => hno ⟨a, s', hs, ha⟩)
  rw [hw] at this
  cases this.1

/-- The hypotheses of `C177_again_partial` are met at the start. -/
example : CarefulRun 3 (fun _ i => i = 1) (start 3) [] (start 3) ∧ (start 3).waiting = true := ⟨.nil _, rfl⟩

end Fpki.Again
