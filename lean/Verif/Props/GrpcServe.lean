import Verif.Model.GrpcServe
/-!
# C211: the gRPC server starts, and stops when it is told
-/
namespace Fpki.GrpcServe

variable {port : Nat → Nat} {n : Nat}

structure Inv (port : Nat → Nat) (n : Nat) (s : St) : Prop where
  lt : ∀ i, s.serving i = true → i < n
  serving : ∀ i, s.serving i = true ↔ (s.phase i = .waiting ∨ s.phase i = .returned true)
  told : ∀ i, s.told i = true ↔ s.phase i = .returned true
  one : ∀ i j, s.serving i = true → s.serving j = true → port i = port j → i = j

theorem inv {s : St} (h : Reach port n s) : Inv port n s := by
  induction h with
  | start => constructor <;> simp [start]
  | @step s s' ev _ hs ih =>
    cases ev with
    | call i l =>
      simp only [step] at hs
      split at hs
      · rename_i hi
        have hns : s.serving i = false := by
          cases hb : s.serving i
          · rfl
          · rcases (ih.serving i).1 hb with h | h <;> simp [hi.2] at h
        have hnt : s.told i = false := by
          cases hb : s.told i
          · rfl
          · have := (ih.told i).1 hb; simp [hi.2] at this
        have fail : Inv port n { s with phase := set s.phase i (.returned false) } := by
          refine ⟨ih.lt, fun j => ?_, fun j => ?_, ih.one⟩
          · by_cases e : j = i
            · subst e; simp [set, hns]
            · simp [set, e, ih.serving j]
          · by_cases e : j = i
            · subst e; simp [set, hnt]
            · simp [set, e, ih.told j]
        split at hs
        · split at hs
          · cases hs
          · cases hs; exact fail
        · rename_i hfree
          split at hs
          · cases hs
            have hfree' : ∀ j, s.serving j = true → port j ≠ port i := by
              intro j hj e
              apply hfree
              rw [List.any_eq_true]
              exact ⟨j, List.mem_range.2 (ih.lt j hj), by simp [hj, e]⟩
            refine ⟨fun j => ?_, fun j => ?_, fun j => ?_, fun j k => ?_⟩
            · by_cases e : j = i
              · subst e; simp [set, hi.1]
              · simpa [set, e] using ih.lt j
            · by_cases e : j = i
              · subst e; simp [set]
              · simp [set, e, ih.serving j]
            · by_cases e : j = i
              · subst e; simp [set, hnt]
              · simp [set, e, ih.told j]
            · by_cases e : j = i <;> by_cases e' : k = i
              · simp [e, e']
              · subst e; simpa [set, e'] using fun h1 h2 => absurd h2.symm (hfree' k h1)
              · subst e'; simpa [set, e] using fun h1 h2 => absurd h2 (hfree' j h1)
              · simpa [set, e, e'] using ih.one j k
          · cases hs; exact fail
      · cases hs
    | terminate i =>
      simp only [step] at hs
      split at hs <;> cases hs
      rename_i hi
      refine ⟨ih.lt, fun j => ?_, fun j => ?_, ih.one⟩
      · by_cases e : j = i
        · subst e; simp [set, (ih.serving j).2 (.inl hi)]
        · simp [set, e, ih.serving j]
      · by_cases e : j = i
        · subst e; simp [set]
        · simp [set, e, ih.told j]
    | query i =>
      simp only [step] at hs
      split at hs <;> cases hs
      exact ⟨ih.lt, ih.serving, ih.told, ih.one⟩

/-- **C211** (in part: until it is told to stop): StartWork returns nil only after it was told to stop, and then always; as long as it waits for that, queries
to its port are answered, and by its own server: no other server of the process has the port. -/
theorem C211_until_told_partial {s : St} (h : Reach port n s) (i : Nat) :
    (s.phase i = .returned true ↔ s.told i = true) ∧
    (s.phase i = .waiting → (∃ s', step port n s (.query i) = some s') ∧ ∀ j, j ≠ i → port j = port i → step port n s (.query j) = none) := by
  have hI := inv h
  refine ⟨(hI.told i).symm, fun hw => ?_⟩
  have hs := (hI.serving i).2 (.inl hw)
  refine ⟨⟨_, by simp only [step, if_pos hs]; rfl⟩, fun j hj hp => ?_⟩
  have : s.serving j = false := by
    cases hb : s.serving j
    · rfl
    · exact absurd (hI.one j i hb hs hp) hj
  simp [step, this]

/-- **C211** (starting): a call whose port is free, also outside of the process, listens; it is refused with an error exactly otherwise. -/
theorem C211_starts {s : St} (h : Reach port n s) (i : Nat) (hi : i < n) (ho : s.phase i = .out) :
    (∀ s', step port n s (.call i true) = some s' → s'.phase i = .waiting) ∧
    (∀ s', step port n s (.call i false) = some s' → s'.phase i = .returned false) ∧
    ((∃ s', step port n s (.call i true) = some s') ↔ ∀ j, (s.phase j = .waiting ∨ s.phase j = .returned true) → port j ≠ port i) := by
  have hI := inv h
  have hany : ((List.range n).any fun j => s.serving j && port j == port i) = true ↔ ∃ j, (s.phase j = .waiting ∨ s.phase j = .returned true) ∧ port j = port i := by
    rw [List.any_eq_true]
    constructor
    · rintro ⟨j, _, hj⟩
      simp only [Bool.and_eq_true, beq_iff_eq] at hj
      exact ⟨j, (hI.serving j).1 hj.1, hj.2⟩
    · rintro ⟨j, hj, hp⟩
      have := (hI.serving j).2 hj
      exact ⟨j, List.mem_range.2 (hI.lt j this), by simp [this, hp]⟩
  have hc : i < n ∧ s.phase i = .out := ⟨hi, ho⟩
  by_cases ha : ((List.range n).any fun j => s.serving j && port j == port i) = true
  · refine ⟨fun s' hs => ?_, fun s' hs => ?_, ?_⟩
    · simp only [step, if_pos hc, if_pos ha] at hs; simp at hs
    · simp only [step, if_pos hc, if_pos ha] at hs; simp at hs; subst hs; simp [set]
    · constructor
      · rintro ⟨s', hs⟩
        simp only [step, if_pos hc, if_pos ha] at hs; simp at hs
      · intro hall
        obtain ⟨j, hj, hp⟩ := hany.1 ha
        exact absurd hp (hall j hj)
  · refine ⟨fun s' hs => ?_, fun s' hs => ?_, ?_⟩
    · simp only [step, if_pos hc, if_neg ha] at hs; simp at hs; subst hs; simp [set]
    · simp only [step, if_pos hc, if_neg ha] at hs; simp at hs; subst hs; simp [set]
    · constructor
      · exact fun _ j hj hp => ha (hany.2 ⟨j, hj, hp⟩)
      · exact fun _ => ⟨_, by simp only [step, if_pos hc, if_neg ha]; rfl⟩

/-- **C211** is false of the code: a server that was told to stop, and whose StartWork has returned, goes on answering queries for as long as the process
lives, and its port stays taken: another StartWork with this port fails. -/
theorem C211_stops_violated {s : St} (h : Reach port n s) (i : Nat) (hi : s.phase i = .returned true) :
    (∃ s', step port n s (.query i) = some s') ∧ ∀ j, port j = port i → step port n s (.call j true) = none := by
  have hI := inv h
  have hs := (hI.serving i).2 (.inr hi)
  refine ⟨⟨_, by simp only [step, if_pos hs]; rfl⟩, fun j hp => ?_⟩
  have ha : ((List.range n).any fun k => s.serving k && port k == port j) = true := by
    rw [List.any_eq_true]
    exact ⟨i, List.mem_range.2 (hI.lt i hs), by simp [hs, hp]⟩
  by_cases hc : j < n ∧ s.phase j = .out
  · simp only [step, if_pos hc, if_pos ha]; simp
  · simp only [step, if_neg hc]

/-! ## A concrete case: a server is started, asked, stopped, asked again; the next one on the same port fails, one on another port does not -/

def runAll (port : Nat → Nat) (n : Nat) : St → List Ev → Option St
  | s, [] => some s
  | s, e :: es => (step port n s e).bind fun s => runAll port n s es

theorem reach_runAll {port : Nat → Nat} {n : Nat} : ∀ (es : List Ev) {s s' : St}, Reach port n s → runAll port n s es = some s' → Reach port n s'
  | [], _, _, h, e => by cases e; exact h
  | a :: es, s, s', h, e => by
    simp only [runAll] at e
    cases hs : step port n s a with
    | none => simp [hs] at e
    | some t => rw [hs] at e; exact reach_runAll es (.step a h hs) e

def ports : Nat → Nat := fun i => if i = 2 then 50051 else 50050
def someEvents : List Ev := [.call 0 true, .query 0, .terminate 0, .query 0, .call 1 false, .call 2 true, .query 2, .query 0]

example : ∃ s, Reach ports 3 s ∧ s.phase 0 = .returned true ∧ s.phase 1 = .returned false ∧ s.phase 2 = .waiting ∧ s.answered = [0, 0, 2, 0] := by
  have h : (runAll ports 3 start someEvents).map (fun s => (s.phase 0, s.phase 1, s.phase 2, s.answered)) =
      some (.returned true, .returned false, .waiting, [0, 0, 2, 0]) := by decide +kernel
  cases hs : runAll ports 3 start someEvents with
  | none => rw [hs] at h; cases h
  | some s =>
    rw [hs] at h
    simp only [Option.map_some, Option.some.injEq, Prod.mk.injEq] at h
    exact ⟨s, reach_runAll _ .start hs, h.1, h.2.1, h.2.2.1, h.2.2.2⟩

end Fpki.GrpcServe
