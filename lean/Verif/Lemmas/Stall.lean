import Verif.Model.Stall
import Verif.Lemmas.ListSet

/-! # Invariants of `WithStallStages` -/
namespace Fpki.Stall

/-- Holds `stallMu`. -/
def Stg.hs (a : Stg) : Nat := if a.pc = .evaluating ∨ a.pc = .holdStall then 1 else 0
def Rel.hs (r : Rel) : Nat := if r = .unlockWg ∨ r = .finished then 0 else 1
/-- Holds `workingStagesWgMu`. -/
def Stg.hw (a : Stg) : Nat := if a.pc = .holdWg ∨ a.pc = .added then 1 else 0
def Rel.hw (r : Rel) : Nat := if r = .waitWg ∨ r = .finished then 0 else 1
/-- Counts in the wait group. -/
def Stg.cw (a : Stg) : Nat := if a.st = true ∧ (a.pc = .added ∨ a.pc = .processing) then 1 else 0
/-- After `Wait` returned and before the unlock. -/
def Rel.busy (r : Rel) : Nat := if r = .running ∨ r = .unlockStall ∨ r = .unlockWg then 1 else 0
/-- The positions around the wait group are only of stages in `stallTheseStages`. -/
def Stg.bad (a : Stg) : Nat := if a.st = false ∧ (a.pc = .waitWg ∨ a.pc = .holdWg ∨ a.pc = .added ∨ a.pc = .waitStall ∨ a.pc = .holdStall) then 1 else 0
/-- Steps still to do. -/
def Stg.weight (a : Stg) : Nat := match a.pc with
  | .waitEval => 20 | .evaluating => 19 | .waitStall => 6 | .holdStall => 5
  | .waitWg => 4 | .holdWg => 3 | .added => 2 | .processing => 1 | _ => 0
def Rel.weight : Rel → Nat
  | .waitWg => 5 | .waiting => 4 | .running => 3 | .unlockStall => 2 | .unlockWg => 1 | .finished => 0

structure Inv (s : State) : Prop where
  mu : (s.stages.map Stg.hs).sum + (s.rels.map Rel.hs).sum = if s.stallMu then 1 else 0
  wmu : (s.stages.map Stg.hw).sum + (s.rels.map Rel.hw).sum = if s.wgMu then 1 else 0
  cnt : (s.stages.map Stg.cw).sum = s.wg
  zero : (s.rels.map Rel.busy).sum ≠ 0 → s.wg = 0
  role : (s.stages.map Stg.bad).sum = 0
  fine : s.panicked = false

def State.weight (s : State) : Nat := (s.stages.map Stg.weight).sum + (s.rels.map Rel.weight).sum

theorem sum_of {f : β → Nat} {l : List β} {i : Nat} {a : β} (h : l[i]? = some a) : f a ≤ (l.map f).sum := by
  induction l generalizing i with
  | nil => simp at h
  | cons x xs ih =>
    cases i with
    | zero => simp at h; subst h; simp
    | succ i => simp at h; have := ih h; simp; omega

theorem exists_of_sum {f : β → Nat} {l : List β} (h : (l.map f).sum ≠ 0) : ∃ (i : Nat) (a : β), l[i]? = some a ∧ f a ≠ 0 := by
  induction l with
  | nil => simp at h
  | cons x xs ih =>
    by_cases hx : f x = 0
    · obtain ⟨i, a, hi, ha⟩ := ih (by simpa [hx] using h)
      exact ⟨i + 1, a, by simpa using hi, ha⟩
    · exact ⟨0, x, rfl, hx⟩

theorem at_some {s : State} {i pc ok f s'} (h : s.at i pc ok f = some s') :
    ∃ a, s.stages[i]? = some a ∧ a.pc = pc ∧ ok = true ∧ s' = f a := by
  unfold State.at at h
  split at h
  · rename_i a ha
    split at h
    · rename_i hc
      cases h
      exact ⟨a, ha, hc.1, hc.2, rfl⟩
    · cases h
  · cases h

theorem rat_some {s : State} {j r ok t s'} (h : s.rat j r ok t = some s') : s.rels[j]? = some r ∧ ok = true ∧ s' = t := by
  unfold State.rat at h
  split at h
  · rename_i hc
    cases h
    exact ⟨hc.1, hc.2, rfl⟩
  · cases h

theorem inv_init (roles) : Inv (init roles) := by
  have h (f : Stg → Nat) (hf : ∀ a b, f ⟨a, b, .done⟩ = 0) : ((roles.map fun r => (⟨r.1, r.2, .done⟩ : Stg)).map f).sum = 0 := by
    induction roles with
    | nil => rfl
    | cons x xs ih => simpa [hf] using ih
  refine ⟨?_, ?_, ?_, ?_, ?_, rfl⟩ <;> simp only [init]
  · rw [h _ (by simp [Stg.hs])]; rfl
  · rw [h _ (by simp [Stg.hw])]; rfl
  · rw [h _ (by simp [Stg.cw])]
  · intro; trivial
  · rw [h _ (by simp [Stg.bad])]

def b2n (b : Bool) : Nat := if b then 1 else 0

theorem inv_rel {s : State} (hi : Inv s) {j : Nat} {r r' : Rel} (hr : s.rels[j]? = some r) {m w : Bool}
    (hm : b2n m + r.hs = b2n s.stallMu + r'.hs) (hw : b2n w + r.hw = b2n s.wgMu + r'.hw)
    (hz : r'.busy ≤ r.busy ∨ s.wg = 0) : Inv ⟨m, w, s.wg, s.stages, s.rels.set j r', false⟩ := by
  obtain ⟨h1, h2, h3, h4, h5, h6⟩ := hi
  have e1 := sum_set (f := Rel.hs) (b := r') hr
  have e2 := sum_set (f := Rel.hw) (b := r') hr
  have e3 := sum_set (f := Rel.busy) (b := r') hr
  unfold b2n at hm hw
  refine ⟨?_, ?_, h3, ?_, h5, rfl⟩ <;> simp only
  · omega
  · omega
  · intro hb
    rcases hz with hz | hz
    · exact h4 (by omega)
    · exact hz

theorem inv_stg {s : State} (hi : Inv s) {i : Nat} {a a' : Stg} (ha : s.stages[i]? = some a) {m w : Bool} {g : Nat} {rs : List Rel}
    (hm : b2n m + a.hs + (s.rels.map Rel.hs).sum = b2n s.stallMu + a'.hs + (rs.map Rel.hs).sum)
    (hw : b2n w + a.hw + (s.rels.map Rel.hw).sum = b2n s.wgMu + a'.hw + (rs.map Rel.hw).sum)
    (hg : g + a.cw = s.wg + a'.cw) (hz : (rs.map Rel.busy).sum = (s.rels.map Rel.busy).sum)
    (hg' : g ≤ s.wg ∨ (s.rels.map Rel.busy).sum = 0) (hb : a'.bad = 0) :
    Inv ⟨m, w, g, s.stages.set i a', rs, false⟩ := by
  obtain ⟨h1, h2, h3, h4, h5, h6⟩ := hi
  have e1 := sum_set (f := Stg.hs) (b := a') ha
  have e2 := sum_set (f := Stg.hw) (b := a') ha
  have e3 := sum_set (f := Stg.cw) (b := a') ha
  have e4 := sum_set (f := Stg.bad) (b := a') ha
  unfold b2n at hm hw
  refine ⟨?_, ?_, ?_, ?_, ?_, rfl⟩ <;> simp only
  · omega
  · omega
  · omega
  · intro hb
    have := h4 (by omega)
    omega
  · omega

theorem weight_rel {s s' : State} {j : Nat} {r r' : Rel} (hr : s.rels[j]? = some r) (h1 : s'.stages = s.stages)
    (h2 : s'.rels = s.rels.set j r') (hl : r'.weight < r.weight) : s'.weight < s.weight := by
  have e := sum_set (f := Rel.weight) (b := r') hr
  unfold State.weight
  rw [h1, h2]
  omega

theorem weight_stg {s s' : State} {i : Nat} {a a' : Stg} (ha : s.stages[i]? = some a) (h1 : s'.stages = s.stages.set i a')
    (hl : (s'.rels.map Rel.weight).sum + a'.weight < (s.rels.map Rel.weight).sum + a.weight) : s'.weight < s.weight := by
  have e := sum_set (f := Stg.weight) (b := a') ha
  unfold State.weight
  rw [h1]
  omega

theorem Inv.stallMu_rel {s : State} (hi : Inv s) {j : Nat} {r : Rel} (hr : s.rels[j]? = some r) (h : r.hs = 1) : s.stallMu = true := by
  have := hi.mu
  have := sum_of (f := Rel.hs) hr
  cases h : s.stallMu
  · simp [h] at *; omega
  · rfl

theorem Inv.wgMu_rel {s : State} (hi : Inv s) {j : Nat} {r : Rel} (hr : s.rels[j]? = some r) (h : r.hw = 1) : s.wgMu = true := by
  have := hi.wmu
  have := sum_of (f := Rel.hw) hr
  cases h : s.wgMu
  · simp [h] at *; omega
  · rfl

theorem Inv.stallMu_stg {s : State} (hi : Inv s) {i : Nat} {a : Stg} (ha : s.stages[i]? = some a) (h : a.hs = 1) : s.stallMu = true := by
  have := hi.mu
  have := sum_of (f := Stg.hs) ha
  cases h : s.stallMu
  · simp [h] at *; omega
  · rfl

theorem Inv.wgMu_stg {s : State} (hi : Inv s) {i : Nat} {a : Stg} (ha : s.stages[i]? = some a) (h : a.hw = 1) :
    s.wgMu = true ∧ (s.rels.map Rel.hw).sum = 0 := by
  have := hi.wmu
  have := sum_of (f := Stg.hw) ha
  cases h : s.wgMu
  · simp [h] at *; omega
  · simp [h] at *; omega

theorem busy_le (rs : List Rel) : (rs.map Rel.busy).sum ≤ (rs.map Rel.hw).sum := by
  induction rs with
  | nil => simp
  | cons x xs ih =>
    have : x.busy ≤ x.hw := by cases x <;> decide
    simp only [List.map_cons, List.sum_cons]
    omega

theorem inv_step {s s' : State} {e : Act} (hi : Inv s) (h : s.exec e = some s') :
    Inv s' ∧ (e.internal = true → s'.weight < s.weight) := by
  have hf := hi.fine
  cases e with
  | rLock j =>
    obtain ⟨hr, hok, rfl⟩ := rat_some h
    have hok : s.wgMu = false := by simpa using hok
    refine ⟨?_, fun _ => weight_rel hr rfl rfl (by decide)⟩
    have := inv_rel (r' := .waiting) (m := s.stallMu) (w := true) hi hr (by simp [Rel.hs]) (by simp [Rel.hw, b2n, hok]) (.inl (by decide))
    simpa [State.relTo, hf] using this
  | rWait j =>
    obtain ⟨hr, hok, rfl⟩ := rat_some h
    have hok : s.wg = 0 := by simpa using hok
    refine ⟨?_, fun _ => weight_rel hr rfl rfl (by decide)⟩
    have := inv_rel (r' := .running) (m := s.stallMu) (w := s.wgMu) hi hr (by simp [Rel.hs]) (by simp [Rel.hw]) (.inr hok)
    simpa [State.relTo, hf] using this
  | rDone j =>
    obtain ⟨hr, hok, rfl⟩ := rat_some h
    refine ⟨?_, fun _ => weight_rel hr rfl rfl (by decide)⟩
    have := inv_rel (r' := .unlockStall) (m := s.stallMu) (w := s.wgMu) hi hr (by simp [Rel.hs]) (by simp [Rel.hw]) (.inl (by decide))
    simpa [State.relTo, hf] using this
  | rUnlockStall j =>
    obtain ⟨hr, hok, rfl⟩ := rat_some h
    refine ⟨?_, fun _ => weight_rel hr rfl rfl (by decide)⟩
    have hm := hi.stallMu_rel hr rfl
    have := inv_rel (r' := .unlockWg) (m := false) (w := s.wgMu) hi hr (by simp [Rel.hs, b2n, hm]) (by simp [Rel.hw]) (.inl (by decide))
    simpa [State.relTo, State.unlockStall, hf, hm] using this
  | rUnlockWg j =>
    obtain ⟨hr, hok, rfl⟩ := rat_some h
    refine ⟨?_, fun _ => weight_rel hr rfl rfl (by decide)⟩
    have hm := hi.wgMu_rel hr rfl
    have := inv_rel (r' := .finished) (m := s.stallMu) (w := false) hi hr (by simp [Rel.hs]) (by simp [Rel.hw, b2n, hm]) (.inl (by decide))
    simpa [State.relTo, State.unlockWg, hf, hm] using this
  | resume i =>
    obtain ⟨⟨ev, st, pc⟩, ha, rfl, hok, rfl⟩ := at_some h
    refine ⟨?_, fun h => by simp [Act.internal] at h⟩
    have := inv_stg (a' := ⟨ev, st, entry ⟨ev, st, .done⟩⟩) (m := s.stallMu) (w := s.wgMu) (g := s.wg) (rs := s.rels) hi ha
      (by cases ev <;> cases st <;> simp [Stg.hs, entry, afterEval]) (by cases ev <;> cases st <;> simp [Stg.hw, entry, afterEval])
      (by cases ev <;> cases st <;> simp [Stg.cw, entry, afterEval]) rfl (.inl (Nat.le_refl _))
      (by cases ev <;> cases st <;> simp [Stg.bad, entry, afterEval])
    simpa [State.goto, hf] using this
  | loop i =>
    obtain ⟨⟨ev, st, pc⟩, ha, rfl, hok, rfl⟩ := at_some h
    refine ⟨?_, fun h => by simp [Act.internal] at h⟩
    have := inv_stg (a' := ⟨ev, st, entry ⟨ev, st, .sending⟩⟩) (m := s.stallMu) (w := s.wgMu) (g := s.wg) (rs := s.rels) hi ha
      (by cases ev <;> cases st <;> simp [Stg.hs, entry, afterEval]) (by cases ev <;> cases st <;> simp [Stg.hw, entry, afterEval])
      (by cases ev <;> cases st <;> simp [Stg.cw, entry, afterEval]) rfl (.inl (Nat.le_refl _))
      (by cases ev <;> cases st <;> simp [Stg.bad, entry, afterEval])
    simpa [State.goto, hf] using this
  | evalLock i =>
    obtain ⟨⟨ev, st, pc⟩, ha, rfl, hok, rfl⟩ := at_some h
    have hok : s.stallMu = false := by simpa using hok
    refine ⟨?_, fun _ => weight_stg ha rfl (by simp [Stg.weight, State.goto])⟩
    have := inv_stg (a' := ⟨ev, st, .evaluating⟩) (m := true) (w := s.wgMu) (g := s.wg) (rs := s.rels) hi ha
      (by simp [Stg.hs, b2n, hok]) (by simp [Stg.hw]) (by simp [Stg.cw]) rfl (.inl (Nat.le_refl _)) (by simp [Stg.bad])
    simpa [State.goto, hf] using this
  | evalNo i =>
    obtain ⟨⟨ev, st, pc⟩, ha, rfl, hok, rfl⟩ := at_some h
    have hm := hi.stallMu_stg ha (by simp [Stg.hs])
    refine ⟨?_, fun _ => weight_stg ha rfl (by cases st <;> simp [Stg.weight, State.goto, State.unlockStall, afterEval])⟩
    have := inv_stg (a' := ⟨ev, st, afterEval ⟨ev, st, .evaluating⟩⟩) (m := false) (w := s.wgMu) (g := s.wg) (rs := s.rels) hi ha
      (by cases st <;> simp [Stg.hs, b2n, hm, afterEval]) (by cases st <;> simp [Stg.hw, afterEval]) (by cases st <;> simp [Stg.cw, afterEval]) rfl
      (.inl (Nat.le_refl _)) (by cases st <;> simp [Stg.bad, afterEval])
    simpa [State.goto, State.unlockStall, hf, hm] using this
  | evalYes i =>
    obtain ⟨⟨ev, st, pc⟩, ha, rfl, hok, rfl⟩ := at_some h
    have hm := hi.stallMu_stg ha (by simp [Stg.hs])
    refine ⟨?_, fun _ => weight_stg ha rfl (by cases st <;> simp [Stg.weight, Rel.weight, afterEval])⟩
    have := inv_stg (a' := ⟨ev, st, afterEval ⟨ev, st, .evaluating⟩⟩) (m := s.stallMu) (w := s.wgMu) (g := s.wg) (rs := s.rels ++ [.waitWg]) hi ha
      (by cases st <;> simp [Stg.hs, Rel.hs, afterEval] <;> omega) (by cases st <;> simp [Stg.hw, Rel.hw, afterEval])
      (by cases st <;> simp [Stg.cw, afterEval]) (by simp [Rel.busy])
      (.inl (Nat.le_refl _)) (by cases st <;> simp [Stg.bad, afterEval])
    simpa [State.goto, hf] using this
  | stallLock i =>
    obtain ⟨⟨ev, st, pc⟩, ha, rfl, hok, rfl⟩ := at_some h
    have hok : s.stallMu = false := by simpa using hok
    have hb := sum_of (f := Stg.bad) ha
    rw [hi.role] at hb
    have hb : st = true := by cases st <;> simp [Stg.bad] at hb ⊢
    refine ⟨?_, fun _ => weight_stg ha rfl (by simp [Stg.weight, State.goto])⟩
    have := inv_stg (a' := ⟨ev, st, .holdStall⟩) (m := true) (w := s.wgMu) (g := s.wg) (rs := s.rels) hi ha
      (by simp [Stg.hs, b2n, hok]) (by simp [Stg.hw]) (by simp [Stg.cw]) rfl (.inl (Nat.le_refl _)) (by simp [Stg.bad, hb])
    simpa [State.goto, hf] using this
  | stallUnlock i =>
    obtain ⟨⟨ev, st, pc⟩, ha, rfl, hok, rfl⟩ := at_some h
    have hm := hi.stallMu_stg ha (by simp [Stg.hs])
    refine ⟨?_, fun _ => weight_stg ha rfl (by simp [Stg.weight, State.goto, State.unlockStall])⟩
    have := inv_stg (a' := ⟨ev, st, .reading⟩) (m := false) (w := s.wgMu) (g := s.wg) (rs := s.rels) hi ha
      (by simp [Stg.hs, b2n, hm]) (by simp [Stg.hw]) (by simp [Stg.cw]) rfl (.inl (Nat.le_refl _)) (by simp [Stg.bad])
    simpa [State.goto, State.unlockStall, hf, hm] using this
  | receive i =>
    obtain ⟨⟨ev, st, pc⟩, ha, rfl, hok, rfl⟩ := at_some h
    refine ⟨?_, fun h => by simp [Act.internal] at h⟩
    have := inv_stg (a' := ⟨ev, st, onReceived ⟨ev, st, .reading⟩⟩) (m := s.stallMu) (w := s.wgMu) (g := s.wg) (rs := s.rels) hi ha
      (by cases st <;> simp [Stg.hs, onReceived]) (by cases st <;> simp [Stg.hw, onReceived])
      (by cases st <;> simp [Stg.cw, onReceived]) rfl (.inl (Nat.le_refl _))
      (by cases st <;> simp [Stg.bad, onReceived])
    simpa [State.goto, hf] using this
  | stop i =>
    obtain ⟨⟨ev, st, pc⟩, ha, rfl, hok, rfl⟩ := at_some h
    refine ⟨?_, fun h => by simp [Act.internal] at h⟩
    have := inv_stg (a' := ⟨ev, st, .done⟩) (m := s.stallMu) (w := s.wgMu) (g := s.wg) (rs := s.rels) hi ha
      (by simp [Stg.hs]) (by simp [Stg.hw]) (by simp [Stg.cw]) rfl (.inl (Nat.le_refl _)) (by simp [Stg.bad])
    simpa [State.goto, hf] using this
  | stream i =>
    obtain ⟨⟨ev, st, pc⟩, ha, rfl, hok, rfl⟩ := at_some h
    refine ⟨?_, fun h => by simp [Act.internal] at h⟩
    have := inv_stg (a' := ⟨ev, st, .streaming⟩) (m := s.stallMu) (w := s.wgMu) (g := s.wg) (rs := s.rels) hi ha
      (by simp [Stg.hs]) (by simp [Stg.hw]) (by simp [Stg.cw]) rfl (.inl (Nat.le_refl _)) (by simp [Stg.bad])
    simpa [State.goto, hf] using this
  | streamed i =>
    obtain ⟨⟨ev, st, pc⟩, ha, rfl, hok, rfl⟩ := at_some h
    refine ⟨?_, fun h => by simp [Act.internal] at h⟩
    have := inv_stg (a' := ⟨ev, st, .sending⟩) (m := s.stallMu) (w := s.wgMu) (g := s.wg) (rs := s.rels) hi ha
      (by simp [Stg.hs]) (by simp [Stg.hw]) (by simp [Stg.cw]) rfl (.inl (Nat.le_refl _)) (by simp [Stg.bad])
    simpa [State.goto, hf] using this
  | finish i =>
    obtain ⟨⟨ev, st, pc⟩, ha, rfl, hok, rfl⟩ := at_some h
    refine ⟨?_, fun h => by simp [Act.internal] at h⟩
    have := inv_stg (a' := ⟨ev, st, .done⟩) (m := s.stallMu) (w := s.wgMu) (g := s.wg) (rs := s.rels) hi ha
      (by simp [Stg.hs]) (by simp [Stg.hw]) (by simp [Stg.cw]) rfl (.inl (Nat.le_refl _)) (by simp [Stg.bad])
    simpa [State.goto, hf] using this
  | wgLock i =>
    obtain ⟨⟨ev, st, pc⟩, ha, rfl, hok, rfl⟩ := at_some h
    have hok : s.wgMu = false := by simpa using hok
    have hb := sum_of (f := Stg.bad) ha
    rw [hi.role] at hb
    have hb : st = true := by cases st <;> simp [Stg.bad] at hb ⊢
    refine ⟨?_, fun _ => weight_stg ha rfl (by simp [Stg.weight, State.goto])⟩
    have := inv_stg (a' := ⟨ev, st, .holdWg⟩) (m := s.stallMu) (w := true) (g := s.wg) (rs := s.rels) hi ha
      (by simp [Stg.hs]) (by simp [Stg.hw, b2n, hok]) (by simp [Stg.cw]) rfl (.inl (Nat.le_refl _)) (by simp [Stg.bad, hb])
    simpa [State.goto, hf] using this
  | wgAdd i =>
    obtain ⟨⟨ev, st, pc⟩, ha, rfl, hok, rfl⟩ := at_some h
    have hb := sum_of (f := Stg.bad) ha
    rw [hi.role] at hb
    have hb : st = true := by cases st <;> simp [Stg.bad] at hb ⊢
    have hw := (hi.wgMu_stg ha (by simp [Stg.hw])).2
    have := busy_le s.rels
    refine ⟨?_, fun _ => weight_stg ha rfl (by simp [Stg.weight, State.goto])⟩
    have := inv_stg (a' := ⟨ev, st, .added⟩) (m := s.stallMu) (w := s.wgMu) (g := s.wg + 1) (rs := s.rels) hi ha
      (by simp [Stg.hs]) (by simp [Stg.hw]) (by simp [Stg.cw, hb]) rfl (.inr (by omega)) (by simp [Stg.bad, hb])
    simpa [State.goto, hf] using this
  | wgUnlock i =>
    obtain ⟨⟨ev, st, pc⟩, ha, rfl, hok, rfl⟩ := at_some h
    have hm := (hi.wgMu_stg ha (by simp [Stg.hw])).1
    refine ⟨?_, fun _ => weight_stg ha rfl (by simp [Stg.weight, State.goto, State.unlockWg])⟩
    have := inv_stg (a' := ⟨ev, st, .processing⟩) (m := s.stallMu) (w := false) (g := s.wg) (rs := s.rels) hi ha
      (by simp [Stg.hs]) (by simp [Stg.hw, b2n, hm]) (by simp [Stg.cw]) rfl (.inl (Nat.le_refl _)) (by simp [Stg.bad])
    simpa [State.goto, State.unlockWg, hf, hm] using this
  | processed i =>
    obtain ⟨⟨ev, st, pc⟩, ha, rfl, hok, rfl⟩ := at_some h
    have hc := sum_of (f := Stg.cw) ha
    rw [hi.cnt] at hc
    cases st with
    | false =>
      refine ⟨?_, fun _ => weight_stg ha rfl (by simp [Stg.weight, State.goto])⟩
      have := inv_stg (a' := ⟨ev, false, .sending⟩) (m := s.stallMu) (w := s.wgMu) (g := s.wg) (rs := s.rels) hi ha
        (by simp [Stg.hs]) (by simp [Stg.hw]) (by simp [Stg.cw]) rfl (.inl (Nat.le_refl _)) (by simp [Stg.bad])
      simpa [State.goto, hf] using this
    | true =>
      have hc : 1 ≤ s.wg := by simpa [Stg.cw] using hc
      refine ⟨?_, fun _ => weight_stg ha rfl (by simp [Stg.weight, State.goto, State.wgDone])⟩
      have := inv_stg (a' := ⟨ev, true, .sending⟩) (m := s.stallMu) (w := s.wgMu) (g := s.wg - 1) (rs := s.rels) hi ha
        (by simp [Stg.hs]) (by simp [Stg.hw]) (by simp [Stg.cw]; omega) rfl (.inl (by omega)) (by simp [Stg.bad])
      have hz : (s.wg == 0) = false := by simpa using (show s.wg ≠ 0 by omega)
      simpa [State.goto, State.wgDone, hf, hz] using this

theorem inv_run {s s' : State} {es : List Act} (hi : Inv s) (h : s.run es = some s') : Inv s' := by
  induction es generalizing s with
  | nil => cases h; exact hi
  | cons e es ih =>
    simp only [State.run] at h
    cases he : s.exec e with
    | none => rw [he] at h; cases h
    | some t => rw [he] at h; exact ih (inv_step hi he).1 h

theorem run_weight {s s' : State} {es : List Act} (hi : Inv s) (h : s.run es = some s') (hn : ∀ e ∈ es, e.internal = true) :
    es.length + s'.weight ≤ s.weight := by
  induction es generalizing s with
  | nil => cases h; simp
  | cons e es ih =>
    simp only [State.run] at h
    cases he : s.exec e with
    | none => rw [he] at h; cases h
    | some t =>
      rw [he] at h
      have h1 := inv_step hi he
      have h2 := ih h1.1 h (fun e he => hn e (.tail _ he))
      have h3 := h1.2 (hn e (.head _))
      simp only [List.length_cons]
      omega

end Fpki.Stall
