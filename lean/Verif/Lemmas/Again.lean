import Verif.Model.Again

namespace Fpki.Again

theorem upd_same {α : Type} (f : Nat → Nat → α) (g i : Nat) (x : α) : upd f g i x g i = x := if_pos ⟨rfl, rfl⟩

theorem upd_other {α : Type} (f : Nat → Nat → α) {g i g' i' : Nat} (x : α) (h : ¬ (g' = g ∧ i' = i)) : upd f g i x g' i' = f g' i' := if_neg h

theorem Run.append {n : Nat} {fails : Nat → Nat → Prop} {s s' s'' : St} {l l' : List Act} (h : Run n fails s l s') (h' : Run n fails s' l' s'') :
    Run n fails s (l ++ l') s'' := by
  induction h with
  | nil => exact h'
  | cons hs _ ih => exact .cons hs (ih h')

/-- What the stages of the newest run leave unchanged until they close their stop channels. -/
structure Frame (s s' : St) : Prop where
  cur : s'.cur = s.cur
  stop : s'.stopCl = s.stopCl
  waiting : s'.waiting = s.waiting
  panicked : s'.panicked = s.panicked
  old : ∀ g, g ≠ s.cur → s'.pc g = s.pc g

theorem Frame.refl (s : St) : Frame s s := ⟨rfl, rfl, rfl, rfl, fun _ _ => rfl⟩

theorem Frame.trans {s s' s'' : St} (h : Frame s s') (h' : Frame s' s'') : Frame s s'' :=
  ⟨h'.cur.trans h.cur, h'.stop.trans h.stop, h'.waiting.trans h.waiting, h'.panicked.trans h.panicked,
    fun g hg => (h'.old g (by rw [h.cur]; exact hg)).trans (h.old g hg)⟩

theorem upd_old {α : Type} (f : Nat → Nat → α) {g i g' : Nat} (x : α) (h : g' ≠ g) : upd f g i x g' = f g' := by
  funext i'; exact upd_other f x (fun hh => h hh.1)

/-- The stages leave their loops one after the other, from the source on. -/
theorem all_leave (n : Nat) (fails : Nat → Nat → Prop) (s : St) (hw : ∀ i, i < n → s.pc s.cur i = .work) (k : Nat) (hk : k ≤ n) :
    ∃ l s', Run n fails s l s' ∧ Frame s s' ∧ (∀ i, i < k → s'.pc s.cur i = .waitNext ∧ s'.outCl s.cur i = true) ∧
      (∀ i, k ≤ i → i < n → s'.pc s.cur i = .work) := by
  induction k with
  | zero => exact ⟨[], s, .nil s, Frame.refl s, fun i hi => absurd hi (by omega), fun i _ hi => hw i hi⟩
  | succ k ih =>
    obtain ⟨l, s', hr, hf, h1, h2⟩ := ih (by omega)
    have hst : Step n fails s' (.leave k) { s' with pc := upd s'.pc s'.cur k .waitNext, outCl := upd s'.outCl s'.cur k true } := by
      refine Step.leave s' k (by rw [hf.cur]; exact h2 k (Nat.le_refl k) (by omega)) ?_
      by_cases h0 : k = 0
      · exact Or.inl h0
      · exact Or.inr (Or.inr (Or.inl ⟨by omega, by rw [hf.cur]; exact (h1 (k - 1) (by omega)).2⟩))
    have hrun := hr.append (.cons hst (.nil _))
    have hfr : Frame s { s' with pc := upd s'.pc s'.cur k .waitNext, outCl := upd s'.outCl s'.cur k true } :=
      hf.trans ⟨rfl, rfl, rfl, rfl, fun g hg => upd_old s'.pc _ hg⟩
    refine ⟨_, _, hrun, hfr, ?_, ?_⟩
    · intro i hi
      dsimp only
      rw [hf.cur]
      by_cases hik : i = k
      · subst hik; exact ⟨upd_same _ _ _ _, upd_same _ _ _ _⟩
      · rw [upd_other _ _ (fun hh => hik hh.2), upd_other _ _ (fun hh => hik hh.2)]; exact h1 i (by omega)
    · intro i hi hin
      dsimp only
      rw [hf.cur, upd_other _ _ (fun hh => absurd hh.2 (by omega))]
      exact h2 i (by omega) hin

/-- The stages close their error channels one after the other, from the sink on. -/
theorem all_close (n : Nat) (fails : Nat → Nat → Prop) (s : St) (hw : ∀ i, i < n → s.pc s.cur i = .waitNext) (k : Nat) (hk : k ≤ n) :
    ∃ l s', Run n fails s l s' ∧ Frame s s' ∧ (∀ i, n - k ≤ i → i < n → s'.pc s.cur i = .closeStop ∧ s'.errCl s.cur i = true) ∧
      (∀ i, i < n - k → s'.pc s.cur i = .waitNext) := by
  induction k with
  | zero => exact ⟨[], s, .nil s, Frame.refl s, fun i hi hn => absurd hi (by omega), fun i hi => hw i (by omega)⟩
  | succ k ih =>
    obtain ⟨l, s', hr, hf, h1, h2⟩ := ih (by omega)
    have hj : n - (k + 1) + 1 = n - k := by omega
    generalize n - (k + 1) = j at *
    have hst : Step n fails s' (.gotNext j) { s' with pc := upd s'.pc s'.cur j .closeErr } := by
      refine Step.gotNext s' j (by rw [hf.cur]; exact h2 j (by omega)) fun hn => ?_
      rw [hf.cur]
      exact (h1 (j + 1) (by omega) hn).2
    have hst2 := Step.closeErr (n := n) (fails := fails) { s' with pc := upd s'.pc s'.cur j .closeErr } j (upd_same _ _ _ _)
    dsimp only at hst2
    have hrun := hr.append (.cons hst (.cons hst2 (.nil _)))
    have hfr : Frame s { s' with pc := upd (upd s'.pc s'.cur j .closeErr) s'.cur j .closeStop, errCl := upd s'.errCl s'.cur j true } :=
      hf.trans ⟨rfl, rfl, rfl, rfl, fun g hg => (upd_old (upd s'.pc s'.cur j .closeErr) _ hg).trans (upd_old s'.pc _ hg)⟩
    refine ⟨_, _, hrun, hfr, ?_, ?_⟩
    · intro i hi hin
      dsimp only
      rw [hf.cur]
      by_cases hik : i = j
      · subst hik; exact ⟨upd_same _ _ _ _, upd_same _ _ _ _⟩
      · rw [upd_other _ _ (fun hh => hik hh.2), upd_other _ _ (fun hh => hik hh.2), upd_other _ _ (fun hh => hik hh.2)]
        exact h1 i (by omega) hin
    · intro i hi
      dsimp only
      rw [hf.cur, upd_other _ _ (fun hh => absurd hh.2 (by omega)), upd_other _ _ (fun hh => absurd hh.2 (by omega))]
      exact h2 i (by omega)

/-- A whole run, in which no stage has closed its stop channel yet. -/
theorem to_the_end (n : Nat) (fails : Nat → Nat → Prop) (s : St) (hw : ∀ i, i < n → s.pc s.cur i = .work) :
    ∃ l s', Run n fails s l s' ∧ Frame s s' ∧ ∀ i, i < n → s'.pc s.cur i = .closeStop ∧ s'.errCl s.cur i = true := by
  obtain ⟨l1, s1, r1, f1, h1, _⟩ := all_leave n fails s hw n (Nat.le_refl n)
  obtain ⟨l2, s2, r2, f2, h2, _⟩ := all_close n fails s1 (fun i hi => by rw [f1.cur]; exact (h1 i hi).1) n (Nat.le_refl n)
  refine ⟨l1 ++ l2, s2, r1.append r2, f1.trans f2, fun i hi => ?_⟩
  have := h2 i (by omega) hi
  rwa [f1.cur] at this

/-- After `Wait` has returned and `Resume` was called, the source of the run before closes the stop channel of the new run. -/
theorem late_close (n : Nat) (hn : 0 < n) (fails : Nat → Nat → Prop) :
    ∃ l s, Run n fails (start n) l s ∧ s.cur = 1 ∧ s.stopCl 1 0 = true ∧ s.waiting = true ∧ s.panicked = false ∧ (∀ i, i < n → s.pc 1 i = .work) ∧
      s.errCl 1 0 = false := by
  obtain ⟨l1, s1, r1, f1, h1⟩ := to_the_end n fails (start n) (fun i hi => if_pos ⟨rfl, hi⟩)
  have hc1 : s1.cur = 0 := f1.cur
  have hfresh : s1.errCl 1 0 = false := by
    have key : ∀ {t t' : St} {l : List Act}, Run n fails t l t' → t.errCl 1 0 = false → t'.cur = 0 → t.cur ≤ t'.cur ∧ (t'.errCl 1 0 = false) := by
      intro t t' l h
      induction h with
      | nil => intro h1 _; exact ⟨Nat.le_refl _, h1⟩
      | @cons u u' u'' a l hs hr ih =>
        intro he h0
        have hle : ∀ {v v' : St} {l : List Act}, Run n fails v l v' → v.cur ≤ v'.cur := by
          intro v v' l h
          induction h with
          | nil => exact Nat.le_refl _
          | cons hs _ ih => cases hs <;> first | exact ih | (unfold doResume doCloseStop at ih; dsimp only at ih; omega) | (unfold doCloseStop at ih; exact ih) | (unfold doResume at ih; dsimp only at ih; omega)
        have hle' := hle hr
        cases hs with
        | leave i hw why => exact ih he h0
        | gotNext i hw hn => exact ih he h0
        | closeErr i hw =>
          have hc : u.cur = 0 := by dsimp only at hle'; omega
          refine ih ?_ h0
          show upd u.errCl u.cur i true 1 0 = false
          rw [upd_other _ _ (fun hh => absurd hh.1 (by omega))]; exact he
        | closeStop g i hw => exact ih he h0
        | stop i hw hs => exact ih he h0
        | waitReturns hw hee => exact ih he h0
        | resume hw =>
          unfold doResume at hle'
          dsimp only at hle'
          omega
    exact (key r1 rfl hc1).2
  have w1 : Step n fails s1 .waitReturns { s1 with waiting := false } := Step.waitReturns s1 (by rw [f1.waiting]; rfl) (by rw [hc1]; exact (h1 0 hn).2)
  have w2 := Step.resume (n := n) (fails := fails) { s1 with waiting := false } rfl
  have w3 : Step n fails (doResume n { s1 with waiting := false }) (.closeStop 0 0) (doCloseStop (doResume n { s1 with waiting := false }) 0 0) := by
    refine Step.closeStop _ 0 0 ?_
    unfold doResume
    dsimp only
    rw [if_neg (fun hh => absurd hh.1 (by omega))]
    exact (h1 0 hn).1
  refine ⟨l1 ++ [.waitReturns, .resume, .closeStop 0 0], _, r1.append (.cons w1 (.cons w2 (.cons w3 (.nil _)))), ?_, ?_, rfl, ?_, ?_, ?_⟩
  · show s1.cur + 1 = 1
    rw [hc1]
  · show upd s1.stopCl (s1.cur + 1) 0 true 1 0 = true
    rw [hc1]; rfl
  · show (s1.panicked || s1.stopCl (s1.cur + 1) 0) = false
    rw [f1.panicked, f1.stop]; rfl
  · intro i hi
    show upd (fun g i => if g = s1.cur + 1 ∧ i < n then Pc.work else s1.pc g i) 0 0 .gone 1 i = .work
    rw [upd_other _ _ (fun hh => absurd hh.1 (by omega)), hc1]
    exact if_pos ⟨rfl, hi⟩
  · exact hfresh

/-- The invariant of careful runs. -/
structure Inv (n : Nat) (s : St) : Prop where
  outside : ∀ g i, n ≤ i → s.pc g i = .idle
  later : ∀ g i, s.cur < g → s.pc g i = .idle ∧ s.outCl g i = false ∧ s.errCl g i = false ∧ s.stopCl g i = false
  before : ∀ g i, g < s.cur → s.pc g i = .gone ∨ s.pc g i = .idle
  runs : ∀ i, i < n → s.pc s.cur i ≠ .idle ∧ s.pc s.cur i ≠ .stopped
  stop : ∀ i, s.stopCl s.cur i = true ↔ s.pc s.cur i = .gone
  err : ∀ i, s.errCl s.cur i = true ↔ (s.pc s.cur i = .closeStop ∨ s.pc s.cur i = .gone)
  out : ∀ i, s.outCl s.cur i = true ↔ (s.pc s.cur i ≠ .idle ∧ s.pc s.cur i ≠ .work)
  next : ∀ i, i + 1 < n → (s.pc s.cur i = .closeErr ∨ s.errCl s.cur i = true) → s.errCl s.cur (i + 1) = true
  calm : s.panicked = false
  waited : s.waiting = false → s.errCl s.cur 0 = true

theorem inv_start (n : Nat) (hn : 0 < n) : Inv n (start n) := by
  unfold start
  refine ⟨fun g i hi => if_neg (by omega), fun g i hg => ⟨if_neg ?_, rfl, rfl, rfl⟩, fun g i hg => absurd hg (by dsimp only; omega), ?_, ?_, ?_, ?_, ?_, rfl, ?_⟩
  · dsimp only at hg; omega
  · intro i hi; dsimp only; rw [if_pos ⟨rfl, hi⟩]; exact ⟨by decide, by decide⟩
  · intro i; dsimp only; split <;> simp
  · intro i; dsimp only; split <;> simp
  · intro i; dsimp only; split <;> simp
  · intro i hi h; dsimp only at h; rw [if_pos ⟨rfl, by omega⟩] at h; simp at h
  · intro h; cases h

theorem upd_row {α : Type} (f : Nat → Nat → α) (g i j : Nat) (x : α) : upd f g i x g j = if j = i then x else f g j := by
  unfold upd
  by_cases h : j = i
  · rw [if_pos ⟨rfl, h⟩, if_pos h]
  · rw [if_neg (fun hh => h hh.2), if_neg h]

theorem inv_step {n : Nat} {fails : Nat → Nat → Prop} {s s' : St} {a : Act} (hi : Inv n s) (h : Step n fails s a s') (hq : a = .resume → Quiet n s) : Inv n s' := by
  have inside : ∀ i, s.pc s.cur i ≠ .idle → i < n := fun i h => by
    by_cases hn : i < n
    · exact hn
    · exact absurd (hi.outside s.cur i (by omega)) h
  cases h with
  | leave i hw why =>
    have hin := inside i (by rw [hw]; decide)
    refine ⟨?_, ?_, ?_, ?_, ?_, ?_, ?_, ?_, hi.calm, hi.waited⟩
    · intro g j hj
      exact (upd_other _ _ (fun hh => absurd hh.2 (by omega))).trans (hi.outside g j hj)
    · intro g j hg
      dsimp only at hg ⊢
      rw [upd_old _ _ (Nat.ne_of_gt hg), upd_old _ _ (Nat.ne_of_gt hg)]; exact hi.later g j hg
    · intro g j hg
      dsimp only at hg ⊢
      rw [upd_old _ _ (Nat.ne_of_lt hg)]; exact hi.before g j hg
    · intro j hj
      dsimp only
      rw [upd_row]; split
      · exact ⟨by decide, by decide⟩
      · exact hi.runs j hj
    · intro j
      dsimp only
      rw [upd_row]; split
      · rename_i hji; subst hji
        rw [hi.stop, hw]; exact ⟨(fun h => by cases h), (fun h => by cases h)⟩
      · exact hi.stop j
    · intro j
      dsimp only
      rw [upd_row]; split
      · rename_i hji; subst hji
        rw [hi.err, hw]; exact ⟨(fun h => by rcases h with h | h <;> cases h), (fun h => by rcases h with h | h <;> cases h)⟩
      · exact hi.err j
    · intro j
      dsimp only
      rw [upd_row, upd_row]; split
      · exact ⟨fun _ => ⟨by decide, by decide⟩, fun _ => rfl⟩
      · exact hi.out j
    · intro j hj h
      dsimp only at h ⊢
      rw [upd_row] at h
      refine hi.next j hj ?_
      split at h
      · rcases h with h | h
        · cases h
        · exact Or.inr h
      · exact h
  | gotNext i hw hnx =>
    have hin := inside i (by rw [hw]; decide)
    refine ⟨?_, ?_, ?_, ?_, ?_, ?_, ?_, ?_, hi.calm, hi.waited⟩
    · intro g j hj
      exact (upd_other _ _ (fun hh => absurd hh.2 (by omega))).trans (hi.outside g j hj)
    · intro g j hg
      dsimp only at hg ⊢
      rw [upd_old _ _ (Nat.ne_of_gt hg)]; exact hi.later g j hg
    · intro g j hg
      dsimp only at hg ⊢
      rw [upd_old _ _ (Nat.ne_of_lt hg)]; exact hi.before g j hg
    · intro j hj
      dsimp only
      rw [upd_row]; split
      · exact ⟨by decide, by decide⟩
      · exact hi.runs j hj
    · intro j
      dsimp only
      rw [upd_row]; split
      · rename_i hji; subst hji
        rw [hi.stop, hw]; exact ⟨(fun h => by cases h), (fun h => by cases h)⟩
      · exact hi.stop j
    · intro j
      dsimp only
      rw [upd_row]; split
      · rename_i hji; subst hji
        rw [hi.err, hw]; exact ⟨(fun h => by rcases h with h | h <;> cases h), (fun h => by rcases h with h | h <;> cases h)⟩
      · exact hi.err j
    · intro j
      dsimp only
      rw [upd_row]; split
      · rename_i hji; subst hji
        rw [hi.out, hw]; exact ⟨fun _ => ⟨by decide, by decide⟩, fun _ => ⟨by decide, by decide⟩⟩
      · exact hi.out j
    · intro j hj h
      dsimp only at h ⊢
      rw [upd_row] at h
      split at h
      · rename_i hji; subst hji; exact hnx hj
      · exact hi.next j hj h
  | closeErr i hw =>
    have hin := inside i (by rw [hw]; decide)
    refine ⟨?_, ?_, ?_, ?_, ?_, ?_, ?_, ?_, hi.calm, ?_⟩
    · intro g j hj
      exact (upd_other _ _ (fun hh => absurd hh.2 (by omega))).trans (hi.outside g j hj)
    · intro g j hg
      dsimp only at hg ⊢
      rw [upd_old _ _ (Nat.ne_of_gt hg), upd_old _ _ (Nat.ne_of_gt hg)]; exact hi.later g j hg
    · intro g j hg
      dsimp only at hg ⊢
      rw [upd_old _ _ (Nat.ne_of_lt hg)]; exact hi.before g j hg
    · intro j hj
      dsimp only
      rw [upd_row]; split
      · exact ⟨by decide, by decide⟩
      · exact hi.runs j hj
    · intro j
      dsimp only
      rw [upd_row]; split
      · rename_i hji; subst hji
        rw [hi.stop, hw]; exact ⟨(fun h => by cases h), (fun h => by cases h)⟩
      · exact hi.stop j
    · intro j
      dsimp only
      rw [upd_row, upd_row]; split
      · exact ⟨fun _ => Or.inl rfl, fun _ => rfl⟩
      · exact hi.err j
    · intro j
      dsimp only
      rw [upd_row]; split
      · rename_i hji; subst hji
        rw [hi.out, hw]; exact ⟨fun _ => ⟨by decide, by decide⟩, fun _ => ⟨by decide, by decide⟩⟩
      · exact hi.out j
    · intro j hj h
      dsimp only at h ⊢
      rw [upd_row, upd_row] at h
      rw [upd_row]
      split
      · rfl
      · split at h
        · rename_i hji; subst hji; exact hi.next j hj (Or.inl hw)
        · exact hi.next j hj h
    · intro h
      dsimp only at h ⊢
      rw [upd_row]
      split
      · rfl
      · exact hi.waited h
  | closeStop g i hw =>
    have hgc : g = s.cur := by
      rcases Nat.lt_trichotomy g s.cur with h | h | h
      · rcases hi.before g i h with h' | h' <;> rw [hw] at h' <;> cases h'
      · exact h
      · have := (hi.later g i h).1; rw [hw] at this; cases this
    subst hgc
    have hin := inside i (by rw [hw]; decide)
    have hnot : s.stopCl s.cur i = false := by
      cases hb : s.stopCl s.cur i with
      | false => rfl
      | true => have := (hi.stop i).1 hb; rw [hw] at this; cases this
    unfold doCloseStop
    refine ⟨?_, ?_, ?_, ?_, ?_, ?_, ?_, ?_, ?_, hi.waited⟩
    · intro g j hj
      exact (upd_other _ _ (fun hh => absurd hh.2 (by omega))).trans (hi.outside g j hj)
    · intro g j hg
      dsimp only at hg ⊢
      rw [upd_old _ _ (Nat.ne_of_gt hg), upd_old _ _ (Nat.ne_of_gt hg)]; exact hi.later g j hg
    · intro g j hg
      dsimp only at hg ⊢
      rw [upd_old _ _ (Nat.ne_of_lt hg)]; exact hi.before g j hg
    · intro j hj
      dsimp only
      rw [upd_row]; split
      · exact ⟨by decide, by decide⟩
      · exact hi.runs j hj
    · intro j
      dsimp only
      rw [upd_row, upd_row]; split
      · exact ⟨fun _ => rfl, fun _ => rfl⟩
      · exact hi.stop j
    · intro j
      dsimp only
      rw [upd_row]; split
      · rename_i hji; subst hji
        rw [hi.err, hw]; exact ⟨fun _ => Or.inr rfl, fun _ => Or.inl rfl⟩
      · exact hi.err j
    · intro j
      dsimp only
      rw [upd_row]; split
      · rename_i hji; subst hji
        rw [hi.out, hw]; exact ⟨fun _ => ⟨by decide, by decide⟩, fun _ => ⟨by decide, by decide⟩⟩
      · exact hi.out j
    · intro j hj h
      dsimp only at h ⊢
      rw [upd_row] at h
      split at h
      · rename_i hji; subst hji
        exact hi.next j hj (Or.inr ((hi.err j).2 (Or.inl hw)))
      · exact hi.next j hj h
    · show (s.panicked || s.stopCl s.cur i) = false
      rw [hi.calm, hnot]; rfl
  | stop i hw hs =>
    have := (hi.stop i).1 hs
    rw [hw] at this; cases this
  | waitReturns hw he =>
    exact ⟨hi.outside, hi.later, hi.before, hi.runs, hi.stop, hi.err, hi.out, hi.next, hi.calm, fun _ => he⟩
  | resume hw =>
    have hq := hq rfl
    have hl := fun j => hi.later (s.cur + 1) j (Nat.lt_succ_self _)
    unfold doResume
    have hcur : ∀ i, (if s.cur + 1 = s.cur + 1 ∧ i < n then Pc.work else s.pc (s.cur + 1) i) = if i < n then Pc.work else Pc.idle := by
      intro i
      by_cases hin : i < n
      · rw [if_pos ⟨rfl, hin⟩, if_pos hin]
      · rw [if_neg (fun hh => hin hh.2), if_neg hin, (hl i).1]
    refine ⟨?_, ?_, ?_, ?_, ?_, ?_, ?_, ?_, hi.calm, (fun h => by cases h)⟩
    · intro g j hj
      dsimp only
      rw [if_neg (fun hh => absurd hh.2 (by omega))]; exact hi.outside g j hj
    · intro g j hg
      dsimp only at hg ⊢
      rw [if_neg (fun hh => absurd hh.1 (by omega))]; exact hi.later g j (by omega)
    · intro g j hg
      dsimp only at hg ⊢
      rw [if_neg (fun hh => absurd hh.1 (by omega))]
      rcases Nat.lt_or_ge g s.cur with h | h
      · exact hi.before g j h
      · have hg' : g = s.cur := by omega
        subst hg'
        by_cases hj : j < n
        · rcases hq s.cur j hj with h | h | h
          · exact Or.inl h
          · exact Or.inr h
          · exact absurd h (hi.runs j hj).2
        · exact Or.inr (hi.outside _ j (by omega))
    · intro j hj
      dsimp only
      rw [hcur, if_pos hj]; exact ⟨by decide, by decide⟩
    · intro j
      dsimp only
      rw [hcur, (hl j).2.2.2]; split <;> simp
    · intro j
      dsimp only
      rw [hcur, (hl j).2.2.1]; split <;> simp
    · intro j
      dsimp only
      rw [hcur, (hl j).2.1]; split <;> simp
    · intro j hj h
      dsimp only at h
      rw [hcur, (hl j).2.2.1, if_pos (by omega)] at h
      rcases h with h | h <;> cases h

theorem inv_run {n : Nat} {fails : Nat → Nat → Prop} {s s' : St} {l : List Act} (h : CarefulRun n fails s l s') (hi : Inv n s) : Inv n s' := by
  induction h with
  | nil => exact hi
  | cons hs hq _ ih => exact ih (inv_step hi hs hq)

/-- When nothing but `Resume` is possible, all goroutines have returned and so has `Wait`. -/
theorem at_rest {n : Nat} {fails : Nat → Nat → Prop} {s : St} (hn : 0 < n) (hi : Inv n s) (hstuck : ∀ a s', Step n fails s a s' → a = .resume) :
    s.waiting = false ∧ Quiet n s := by
  have h1 : ∀ i, i < n → s.pc s.cur i ≠ .closeErr := fun i _ h => by cases hstuck _ _ (Step.closeErr s i h)
  have h2 : ∀ i, i < n → s.pc s.cur i ≠ .closeStop := fun i _ h => by cases hstuck _ _ (Step.closeStop s s.cur i h)
  have h3 : ∀ i, i < n → s.pc s.cur i ≠ .work := by
    intro i
    induction i with
    | zero => exact fun _ h => by cases hstuck _ _ (Step.leave s 0 h (Or.inl rfl))
    | succ i ih =>
      intro hin h
      have hi1 := ih (by omega)
      have ho : s.outCl s.cur i = true := (hi.out i).2 ⟨(hi.runs i (by omega)).1, hi1⟩
      cases hstuck _ _ (Step.leave s (i + 1) h (Or.inr (Or.inr (Or.inl ⟨by omega, ho⟩))))
  have h4 : ∀ k i, i + k + 1 = n → s.pc s.cur i = .gone := by
    intro k
    induction k with
    | zero =>
      intro i hin
      have hx : s.pc s.cur i ≠ .waitNext := fun h => by cases hstuck _ _ (Step.gotNext s i h (fun hh => by omega))
      have a := h1 i (by omega); have b := h2 i (by omega); have c := h3 i (by omega); have d := hi.runs i (by omega)
      cases hp : s.pc s.cur i <;> simp_all
    | succ k ih =>
      intro i hin
      have hg := ih (i + 1) (by omega)
      have hx : s.pc s.cur i ≠ .waitNext := fun h => by
        cases hstuck _ _ (Step.gotNext s i h (fun _ => (hi.err (i + 1)).2 (Or.inr hg)))
      have a := h1 i (by omega); have b := h2 i (by omega); have c := h3 i (by omega); have d := hi.runs i (by omega)
      cases hp : s.pc s.cur i <;> simp_all
  refine ⟨?_, ?_⟩
  · cases hw : s.waiting with
    | false => rfl
    | true =>
      have he : s.errCl s.cur 0 = true := (hi.err 0).2 (Or.inr (h4 (n - 1) 0 (by omega)))
      cases hstuck _ _ (Step.waitReturns s hw he)
  · intro g i hin
    rcases Nat.lt_trichotomy g s.cur with h | h | h
    · rcases hi.before g i h with h' | h'
      · exact Or.inl h'
      · exact Or.inr (Or.inl h')
    · subst h; exact Or.inl (h4 (n - 1 - i) i (by omega))
    · exact Or.inr (Or.inl (hi.later g i h).1)

/-- How many steps a goroutine still has to do. -/
def rank : Pc → Nat
  | .work => 4
  | .waitNext => 3
  | .closeErr => 2
  | .closeStop => 1
  | _ => 0

/-- How many steps all stages together still have to do. -/
def todo (s : St) : Nat → Nat
  | 0 => 0
  | k + 1 => todo s k + rank (s.pc s.cur k)

theorem todo_le (s : St) (k : Nat) : todo s k ≤ 4 * k := by
  induction k with
  | zero => exact Nat.le_refl _
  | succ k ih =>
    have : rank (s.pc s.cur k) ≤ 4 := by cases s.pc s.cur k <;> decide
    unfold todo; omega

theorem todo_upd {s s' : St} {i : Nat} {p : Pc} (hc : s'.cur = s.cur) (hp : s'.pc = upd s.pc s.cur i p) (k : Nat) :
    todo s' k + (if i < k then rank (s.pc s.cur i) else 0) = todo s k + (if i < k then rank p else 0) := by
  induction k with
  | zero => rfl
  | succ k ih =>
    unfold todo
    rw [hc, hp, upd_row]
    by_cases hik : k = i
    · subst hik
      rw [if_neg (by omega), if_neg (by omega)] at ih
      rw [if_pos rfl, if_pos (by omega), if_pos (by omega)]
      omega
    · rw [if_neg hik]
      by_cases hlt : i < k
      · rw [if_pos hlt, if_pos hlt] at ih
        rw [if_pos (by omega), if_pos (by omega)]; omega
      · rw [if_neg hlt, if_neg hlt] at ih
        rw [if_neg (by omega), if_neg (by omega)]; omega

/-- Every step but `Resume` brings the end nearer. -/
theorem todo_step {n : Nat} {fails : Nat → Nat → Prop} {s s' : St} {a : Act} (hi : Inv n s) (h : Step n fails s a s') (ha : a ≠ .resume) :
    todo s' n + (if s'.waiting then 1 else 0) < todo s n + (if s.waiting then 1 else 0) := by
  have inside : ∀ i, s.pc s.cur i ≠ .idle → i < n := fun i h => by
    by_cases hn : i < n
    · exact hn
    · exact absurd (hi.outside s.cur i (by omega)) h
  cases h with
  | leave i hw why =>
    have hk := todo_upd (s := s) (s' := { s with pc := upd s.pc s.cur i .waitNext, outCl := upd s.outCl s.cur i true }) rfl rfl n
    rw [if_pos (inside i (by rw [hw]; decide)), if_pos (inside i (by rw [hw]; decide)), hw] at hk
    dsimp only [rank] at hk ⊢; omega
  | gotNext i hw hnx =>
    have hk := todo_upd (s := s) (s' := { s with pc := upd s.pc s.cur i .closeErr }) rfl rfl n
    rw [if_pos (inside i (by rw [hw]; decide)), if_pos (inside i (by rw [hw]; decide)), hw] at hk
    dsimp only [rank] at hk ⊢; omega
  | closeErr i hw =>
    have hk := todo_upd (s := s) (s' := { s with pc := upd s.pc s.cur i .closeStop, errCl := upd s.errCl s.cur i true }) rfl rfl n
    rw [if_pos (inside i (by rw [hw]; decide)), if_pos (inside i (by rw [hw]; decide)), hw] at hk
    dsimp only [rank] at hk ⊢; omega
  | closeStop g i hw =>
    have hgc : g = s.cur := by
      rcases Nat.lt_trichotomy g s.cur with h | h | h
      · rcases hi.before g i h with h' | h' <;> rw [hw] at h' <;> cases h'
      · exact h
      · have := (hi.later g i h).1; rw [hw] at this; cases this
    subst hgc
    have hk := todo_upd (s := s) (s' := doCloseStop s s.cur i) rfl rfl n
    rw [if_pos (inside i (by rw [hw]; decide)), if_pos (inside i (by rw [hw]; decide)), hw] at hk
    have hwt : (doCloseStop s s.cur i).waiting = s.waiting := rfl
    rw [hwt]
    dsimp only [rank] at hk ⊢; omega
  | stop i hw hs =>
    have := (hi.stop i).1 hs
    rw [hw] at this; cases this
  | waitReturns hw he =>
    rw [hw]
    have : ∀ k, todo { s with waiting := false } k = todo s k := by
      intro k
      induction k with
      | zero => rfl
      | succ k ih => unfold todo; rw [ih]
    rw [this]; simp
  | resume hw => exact absurd rfl ha

theorem todo_run {n : Nat} {fails : Nat → Nat → Prop} {s s' : St} {l : List Act} (h : CarefulRun n fails s l s') (hi : Inv n s) (hl : Act.resume ∉ l) :
    l.length + (todo s' n + (if s'.waiting then 1 else 0)) ≤ todo s n + (if s.waiting then 1 else 0) := by
  induction h with
  | nil => simp
  | @cons s s1 s2 a l hs hq _ ih =>
    have h1 := todo_step hi hs (fun h => hl (by rw [h]; exact List.mem_cons_self))
    have h2 := ih (inv_step hi hs hq) (fun h => hl (List.mem_cons_of_mem _ h))
    rw [List.length_cons]; omega

end Fpki.Again
