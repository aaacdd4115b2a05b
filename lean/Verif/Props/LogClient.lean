import Verif.Model.LogClient
import Verif.Lemmas.ListSet

/-!
# C61: AddLeaves; C71: FetchInclusions; C72: QueueRPCs
-/
namespace Fpki.LogClient

variable {δ ρ ε π : Type}

/-- The states that can be reached from the start, with the number of steps. -/
inductive Reach (size nworkers : Nat) : Nat → Farm ρ → Prop
  | init : Reach size nworkers 0 (start size nworkers)
  | step {k : Nat} {s s' : Farm ρ} (e : Ev ρ) : Reach size nworkers k s → s.exec e = some s' → Reach size nworkers (k + 1) s'

/-- The jobs a worker holds. -/
def held : Worker ρ → List Nat
  | .busy j => [j]
  | .ready j _ => [j]
  | _ => []

/-- The results a worker holds. -/
def pend : Worker ρ → List (Nat × ρ)
  | .ready j r => [(j, r)]
  | _ => []

/-- Steps that a worker can still do on its own. -/
def weight : Worker ρ → Nat
  | .exited => 0
  | .idle => 1
  | .ready _ _ => 2
  | .busy _ => 3

/-- What all reachable states satisfy. -/
structure Inv (size nworkers k : Nat) (s : Farm ρ) : Prop where
  size_eq : s.size = size
  len : s.workers.length = nworkers
  sent_loop : s.phase = .loop → s.sent < size ∧ ∀ w ∈ s.workers, ∀ h : weight w = 0, False
  sent_drain : s.phase = .drain → s.sent = size ∧ s.received.length < size
  sent_done : s.phase = .done → s.sent = size ∧ s.received.length = size
  panicked : s.phase = .panicked → size = 0
  jobs : (s.received.map Prod.fst ++ s.workers.flatMap held).Perm (List.range s.sent)
  answers : (s.received ++ s.workers.flatMap pend).Perm s.answers
  le : s.sent ≤ size
  steps : k + 3 * (size - s.sent) + (s.workers.map weight).sum ≤ 3 * size + nworkers

theorem flatMap_replicate_nil {α β : Type} (f : α → List β) (a : α) (h : f a = []) : ∀ n : Nat, (List.replicate n a).flatMap f = []
  | 0 => rfl
  | n + 1 => by rw [List.replicate_succ, List.flatMap_cons, h, flatMap_replicate_nil f a h n]; rfl

theorem sum_replicate (n : Nat) : ((List.replicate n (Worker.idle : Worker ρ)).map weight).sum = n := by
  induction n with
  | zero => rfl
  | succ n ih => simp only [List.replicate_succ, List.map_cons, List.sum_cons, ih, weight]; omega

theorem inv_start (size nworkers : Nat) : Inv size nworkers 0 (start size nworkers : Farm ρ) := by
  unfold start
  constructor
  · rfl
  · simp
  · intro h
    by_cases h0 : size = 0
    · simp [h0] at h
    · refine ⟨by simp only; omega, ?_⟩
      intro w hw
      rw [(List.mem_replicate.1 hw).2]
      simp [weight]
  · intro h; by_cases h0 : size = 0 <;> simp [h0] at h
  · intro h; by_cases h0 : size = 0 <;> simp [h0] at h
  · intro h; by_cases h0 : size = 0
    · exact h0
    · simp [h0] at h
  · rw [flatMap_replicate_nil _ _ rfl]; simp
  · rw [flatMap_replicate_nil _ _ rfl]; simp
  · simp
  · simp only [sum_replicate]; omega

theorem mem_set_weight {l : List (Worker ρ)} {i : Nat} {a : Worker ρ} (h : ∀ w ∈ l, ∀ _ : weight w = 0, False) (ha : weight a ≠ 0) : ∀ w ∈ l.set i a, ∀ _ : weight w = 0, False := by
  intro w hw h0
  rcases List.mem_or_eq_of_mem_set hw with hw | rfl
  · exact h w hw h0
  · exact ha h0

theorem Inv.step {size nworkers k : Nat} {s s' : Farm ρ} (h : Inv size nworkers k s) (e : Ev ρ) (he : s.exec e = some s') : Inv size nworkers (k + 1) s' := by
  obtain ⟨sz, sent, phase, workers, received, answers⟩ := s
  obtain ⟨h1, h2, h3, h4, h5, h6, h7, h8, h9, h10⟩ := h
  simp only at h1 h2 h3 h4 h5 h6 h7 h8 h9 h10
  subst h1
  cases e with
  | take w =>
    simp only [Farm.exec] at he
    split at he
    · rename_i hw
      cases he
      have hs := h3 rfl
      have hj := flatMap_set_perm (f := held) (b := Worker.busy sent) hw
      have hp := flatMap_set_perm (f := pend) (b := Worker.busy sent) hw
      have hq := sum_set (f := weight) (b := Worker.busy sent) hw
      simp only [held, pend, weight, List.nil_append, List.singleton_append] at hj hp hq
      refine ⟨rfl, by simpa using h2, ?_, ?_, ?_, ?_, ?_, ?_, ?_, ?_⟩
      · intro hl
        simp only at hl
        split at hl
        · cases hl
        · refine ⟨by simp only; omega, mem_set_weight hs.2 (by simp [weight])⟩
      · intro hl
        simp only at hl
        split at hl
        · rename_i hd
          refine ⟨hd, ?_⟩
          have := h7.length_eq
          simp at this
          simp only
          omega
        · cases hl
      · intro hl; simp only at hl; split at hl <;> cases hl
      · intro hl; simp only at hl; split at hl <;> cases hl
      · simp only [List.range_succ]
        refine (List.Perm.append_left _ hj).trans ?_
        refine List.perm_middle.trans ?_
        refine (List.Perm.cons _ h7).trans ?_
        exact (List.perm_append_singleton _ _).symm
      · exact (List.Perm.append_left _ hp).trans h8
      · simp only; omega
      · simp only; omega
    · cases he
  | answer w r =>
    simp only [Farm.exec] at he
    split at he
    · rename_i j hw
      cases he
      have hj := flatMap_set_perm (f := held) (b := Worker.ready j r) hw
      have hp := flatMap_set_perm (f := pend) (b := Worker.ready j r) hw
      have hq := sum_set (f := weight) (b := Worker.ready j r) hw
      simp only [held, pend, weight, List.nil_append, List.singleton_append] at hj hp hq
      refine ⟨rfl, by simpa using h2, fun hl => ⟨(h3 hl).1, mem_set_weight (h3 hl).2 (by simp [weight])⟩, h4, h5, h6, ?_, ?_, h9, ?_⟩
      · exact (List.Perm.append_left _ (List.perm_cons _ |>.1 hj)).trans h7
      · refine (List.Perm.append_left _ hp).trans ?_
        refine List.perm_middle.trans ?_
        refine (List.Perm.cons _ h8).trans ?_
        exact (List.perm_append_singleton _ _).symm
      · simp only; omega
    · cases he
  | deliver w =>
    simp only [Farm.exec] at he
    split at he
    · rename_i j r hw
      cases he
      have hj := flatMap_set_perm (f := held) (b := Worker.idle) hw
      have hp := flatMap_set_perm (f := pend) (b := Worker.idle) hw
      have hq := sum_set (f := weight) (b := Worker.idle) hw
      simp only [held, pend, weight, List.nil_append, List.singleton_append] at hj hp hq
      refine ⟨rfl, by simpa using h2, fun hl => ⟨(h3 hl).1, mem_set_weight (h3 hl).2 (by simp [weight])⟩, fun hl => (by cases hl), fun hl => (by cases hl), h6, ?_, ?_, h9, ?_⟩
      · simp only [List.map_append, List.map_cons, List.map_nil, List.append_assoc, List.singleton_append]
        exact (List.Perm.append_left _ hj).trans h7
      · simp only [List.append_assoc, List.singleton_append]
        exact (List.Perm.append_left _ hp).trans h8
      · simp only; omega
    · rename_i j r hw
      cases he
      have hj := flatMap_set_perm (f := held) (b := Worker.idle) hw
      have hp := flatMap_set_perm (f := pend) (b := Worker.idle) hw
      have hq := sum_set (f := weight) (b := Worker.idle) hw
      simp only [held, pend, weight, List.nil_append, List.singleton_append] at hj hp hq
      have hd := h4 rfl
      refine ⟨rfl, by simpa using h2, ?_, ?_, ?_, ?_, ?_, ?_, h9, ?_⟩
      · intro hl; simp only at hl; split at hl <;> cases hl
      · intro hl
        simp only at hl
        split at hl
        · cases hl
        · refine ⟨hd.1, ?_⟩
          simp only [List.length_append, List.length_singleton]
          omega
      · intro hl
        simp only at hl
        split at hl
        · refine ⟨hd.1, ?_⟩
          simp only [List.length_append, List.length_singleton]
          omega
        · cases hl
      · intro hl; simp only at hl; split at hl <;> cases hl
      · simp only [List.map_append, List.map_cons, List.map_nil, List.append_assoc, List.singleton_append]
        exact (List.Perm.append_left _ hj).trans h7
      · simp only [List.append_assoc, List.singleton_append]
        exact (List.Perm.append_left _ hp).trans h8
      · simp only; omega
    · cases he
  | exit w =>
    simp only [Farm.exec] at he
    split at he
    · rename_i hw
      cases he
      have hj := flatMap_set_perm (f := held) (b := Worker.exited) hw
      have hp := flatMap_set_perm (f := pend) (b := Worker.exited) hw
      have hq := sum_set (f := weight) (b := Worker.exited) hw
      simp only [held, pend, weight, List.nil_append] at hj hp hq
      exact ⟨rfl, by simpa using h2, fun hl => (by cases hl), h4, h5, h6, (List.Perm.append_left _ hj).trans h7, (List.Perm.append_left _ hp).trans h8, h9, by simp only; omega⟩
    · rename_i hw
      cases he
      have hj := flatMap_set_perm (f := held) (b := Worker.exited) hw
      have hp := flatMap_set_perm (f := pend) (b := Worker.exited) hw
      have hq := sum_set (f := weight) (b := Worker.exited) hw
      simp only [held, pend, weight, List.nil_append] at hj hp hq
      exact ⟨rfl, by simpa using h2, fun hl => (by cases hl), h4, h5, h6, (List.Perm.append_left _ hj).trans h7, (List.Perm.append_left _ hp).trans h8, h9, by simp only; omega⟩
    · cases he

theorem Reach.inv {size nworkers k : Nat} {s : Farm ρ} (h : Reach size nworkers k s) : Inv size nworkers k s := by
  induction h with
  | init => exact inv_start size nworkers
  | step e _ he ih => exact ih.step e he

/-- When the leader returns: every job was answered exactly once, the leader has received exactly these answers (in some order), and no worker is left with an answer, so that closing the
result channel is safe. -/
theorem done_spec {size nworkers k : Nat} {s : Farm ρ} (h : Reach size nworkers k s) (hd : s.phase = .done) :
    s.received.Perm s.answers ∧ (s.answers.map Prod.fst).Perm (List.range size) ∧ ∀ w ∈ s.workers, held w = [] := by
  have hi := h.inv
  have h1 := hi.sent_done hd
  have hl := hi.jobs.length_eq
  simp only [List.length_append, List.length_map, List.length_range] at hl
  have hh : s.workers.flatMap held = [] := List.eq_nil_of_length_eq_zero (by omega)
  have hw : ∀ w ∈ s.workers, held w = [] := List.flatMap_eq_nil_iff.1 hh
  have hp : s.workers.flatMap pend = [] := by
    apply List.flatMap_eq_nil_iff.2
    intro w hw'
    have := hw w hw'
    cases w <;> simp [held] at this <;> rfl
  have ha := hi.answers
  rw [hp, List.append_nil] at ha
  have hj := hi.jobs
  rw [hh, List.append_nil, h1.1] at hj
  exact ⟨ha, (ha.map _).symm.trans hj, hw⟩

/-- With at least one worker the leader never waits for ever: as long as it has not returned, something can happen, whatever the log server answers. -/
theorem not_stuck {size nworkers k : Nat} {s : Farm ρ} (h : Reach size nworkers k s) (hw : 0 < nworkers) (hs : 0 < size) (hd : s.phase ≠ .done) (r : ρ) :
    ∃ e s', s.exec e = some s' := by
  have hi := h.inv
  cases hp : s.phase with
  | done => exact absurd hp hd
  | panicked => have := hi.panicked hp; omega
  | loop =>
    have h0 : 0 < s.workers.length := by rw [hi.len]; exact hw
    have hg : s.workers[0]? = some s.workers[0] := List.getElem?_eq_getElem h0
    have hne := (hi.sent_loop hp).2 s.workers[0] (List.getElem_mem h0)
    cases hw0 : s.workers[0] with
    | idle => exact ⟨.take 0, by simp only [Farm.exec, hp, hg, hw0]; exact ⟨_, rfl⟩⟩
    | busy j => exact ⟨.answer 0 r, by simp only [Farm.exec, hg, hw0]; exact ⟨_, rfl⟩⟩
    | ready j r => exact ⟨.deliver 0, by simp only [Farm.exec, hp, hg, hw0]; exact ⟨_, rfl⟩⟩
    | exited => rw [hw0] at hne; exact absurd rfl (fun h => hne h)
  | drain =>
    have hdr := hi.sent_drain hp
    have hl := hi.jobs.length_eq
    simp only [List.length_append, List.length_map, List.length_range] at hl
    have hh : s.workers.flatMap held ≠ [] := by
      intro h; rw [h] at hl; simp at hl; omega
    obtain ⟨j, hj⟩ := List.exists_mem_of_ne_nil _ hh
    obtain ⟨w, hw1, hw2⟩ := List.mem_flatMap.1 hj
    obtain ⟨i, hi1, hi2⟩ := List.mem_iff_getElem.1 hw1
    have hg : s.workers[i]? = some w := by rw [List.getElem?_eq_getElem hi1, hi2]
    cases w with
    | idle => cases hw2
    | exited => cases hw2
    | busy j => exact ⟨.answer i r, by simp only [Farm.exec, hg]; exact ⟨_, rfl⟩⟩
    | ready j r => exact ⟨.deliver i, by simp only [Farm.exec, hp, hg]; exact ⟨_, rfl⟩⟩

/-- Every execution is finite: at most three steps per leaf and one per worker. -/
theorem steps_bounded {size nworkers k : Nat} {s : Farm ρ} (h : Reach size nworkers k s) : k ≤ 3 * size + nworkers := by
  have := h.inv.steps
  omega

/-! ## C61 -/

theorem addLeaves_spec (empty : δ) (data : Nat → δ) (rs : List (Nat × Option ε)) :
    addLeaves empty data rs = ⟨empty :: rs.filterMap (fun r => r.2.map (fun _ => data r.1)), rs.filterMap Prod.snd⟩ := by
  have : ∀ (rs : List (Nat × Option ε)) (res : AddResult δ ε), rs.foldl (AddResult.add data) res =
      ⟨res.failedLeaves ++ rs.filterMap (fun r => r.2.map (fun _ => data r.1)), res.errs ++ rs.filterMap Prod.snd⟩ := by
    intro rs
    induction rs with
    | nil => intro res; simp
    | cons r rs ih =>
      intro res
      obtain ⟨j, r⟩ := r
      rw [List.foldl_cons, ih]
      cases r with
      | none => simp [AddResult.add]
      | some e => simp [AddResult.add]
  rw [addLeaves, this]
  simp [AddResult.init]

/-- C61 (partial): when `AddLeaves` returns, every leaf was sent to the log server exactly once, whatever the schedule. The result holds, in some common order of the failed leaves, one error and one leaf
for each of them; but the list of leaves begins with one more, empty leaf (`C61_spurious_violated`). -/
theorem C61_add_leaves_partial {size nworkers k : Nat} {s : Farm (Option ε)} (h : Reach size nworkers k s) (hd : s.phase = .done) (empty : δ) (data : Nat → δ) :
    (s.answers.map Prod.fst).Perm (List.range size) ∧
    ∃ failed : List (Nat × ε), failed.Perm (s.answers.filterMap (fun r => r.2.map (fun e => (r.1, e)))) ∧
      (addLeaves empty data s.received).failedLeaves = empty :: failed.map (fun r => data r.1) ∧ (addLeaves empty data s.received).errs = failed.map Prod.snd := by
  obtain ⟨h1, h2, _⟩ := done_spec h hd
  refine ⟨h2, s.received.filterMap (fun r => r.2.map (fun e => (r.1, e))), h1.filterMap _, ?_⟩
  rw [addLeaves_spec]
  simp only [List.map_filterMap, Option.map_map]
  refine ⟨rfl, ?_⟩
  congr 1
  funext r
  cases r.2 <;> rfl

/-- C61: `AddLeaves` of at least one leaf, with at least one worker, returns after finitely many steps, whatever the schedule and the answers. -/
theorem C61_terminates {size nworkers k : Nat} {s : Farm (Option ε)} (h : Reach size nworkers k s) (hw : 0 < nworkers) (hs : 0 < size) :
    k ≤ 3 * size + nworkers ∧ s.phase ≠ .panicked ∧ (s.phase = .done ∨ ∃ e s', s.exec e = some s') := by
  refine ⟨steps_bounded h, fun hp => by have := h.inv.panicked hp; omega, ?_⟩
  by_cases hd : s.phase = .done
  · exact Or.inl hd
  · exact Or.inr (not_stuck h hw hs hd none)

/-- C61 is violated: also if no leaf failed, the list of failed leaves is not empty; it always has one element more than the list of errors. -/
theorem C61_spurious_violated (empty : δ) (data : Nat → δ) (rs : List (Nat × Option ε)) :
    (addLeaves empty data rs).failedLeaves.length = (addLeaves empty data rs).errs.length + 1 := by
  rw [addLeaves_spec]
  simp only [List.length_cons, Nat.add_right_cancel_iff]
  induction rs with
  | nil => rfl
  | cons r rs ih => cases hr : r.2 <;> simp [List.filterMap_cons, hr, ih]

/-- C61 is violated for an empty list of leaves: the call panics. -/
theorem C61_no_leaves_violated (nworkers : Nat) : (start 0 nworkers : Farm (Option ε)).phase = .panicked := rfl

/-- C61 is violated without workers (`NumOfWorker` is not checked): the call blocks for ever. -/
theorem C61_no_workers_violated (size : Nat) (hs : 0 < size) : (start size 0 : Farm (Option ε)).phase = .loop ∧ ∀ e, (start size 0 : Farm (Option ε)).exec e = none := by
  constructor
  · simp only [start]; rw [if_neg (by omega)]
  · intro e
    cases e <;> simp [start, Farm.exec] <;> split <;> simp_all

/-- Running events. -/
def Farm.run (s : Farm ρ) : List (Ev ρ) → Option (Farm ρ)
  | [] => some s
  | e :: es => (s.exec e).bind (fun s' => s'.run es)

theorem reach_run {size nworkers : Nat} : ∀ (es : List (Ev ρ)) {k : Nat} {s s' : Farm ρ}, Reach size nworkers k s → s.run es = some s' → Reach size nworkers (k + es.length) s'
  | [], k, s, s', h, he => by cases he; exact h
  | e :: es, k, s, s', h, he => by
    unfold Farm.run at he
    cases hx : s.exec e with
    | none => rw [hx] at he; cases he
    | some s1 =>
      rw [hx] at he
      have := reach_run es (.step e h hx) he
      rw [List.length_cons, Nat.add_comm es.length, ← Nat.add_assoc]
      exact this

/-- A schedule with two workers and three leaves, of which the second fails: its result comes in before the others. -/
example : ∃ s : Farm (Option Nat), Reach 3 2 9 s ∧ s.phase = .done ∧ s.received = [(1, some 7), (2, none), (0, none)] ∧
    (addLeaves 0 (fun j => 10 + j) s.received).failedLeaves = [0, 11] := by
  have h : (start 3 2 : Farm (Option Nat)).run
      [.take 0, .take 1, .answer 1 (some 7), .deliver 1, .take 1, .answer 1 none, .answer 0 none, .deliver 1, .deliver 0] =
      some ⟨3, 3, .done, [.idle, .idle], [(1, some 7), (2, none), (0, none)], [(1, some 7), (2, none), (0, none)]⟩ := rfl
  exact ⟨_, reach_run _ .init h, rfl, rfl, rfl⟩

/-! ## C71 -/

/-- C71: a worker's query loop for a leaf ends after at most twelve queries if the log server never returns an empty list of proofs: with the first proof or error other than "not found", or with the
twelfth "not found". -/
theorem C71_query_ends_partial (replies : Nat → Reply ε π) (h : ∀ i, replies i ≠ .empty) : ∃ r, fetchOne replies 12 0 0 = some r := by
  have : ∀ (d i tries : Nat), tries + d = 11 → ∃ r, fetchOne replies (d + 1) i tries = some r := by
    intro d
    induction d with
    | zero =>
      intro i tries ht
      simp only [fetchOne]
      have := h i
      cases hr : replies i with
      | notFound e => simp only; rw [if_pos (by omega)]; exact ⟨_, rfl⟩
      | err e => exact ⟨_, rfl⟩
      | empty => exact absurd hr this
      | proof p => exact ⟨_, rfl⟩
    | succ d ih =>
      intro i tries ht
      rw [fetchOne]
      have := h i
      cases hr : replies i with
      | notFound e => simp only; rw [if_neg (by omega)]; exact ih (i + 1) (tries + 1) (by omega)
      | err e => exact ⟨_, rfl⟩
      | empty => exact absurd hr this
      | proof p => exact ⟨_, rfl⟩
  exact this 11 0 0 rfl

/-- C71: a proof that is returned is one that the log server sent, an error too. -/
theorem C71_query_sound (replies : Nat → Reply ε π) : ∀ (fuel i tries : Nat) (r : Except ε π), fetchOne replies fuel i tries = some r →
    ∃ j, replies j = .proof r ∨ (∃ e, r = .error e ∧ (replies j = .err e ∨ replies j = .notFound e))
  | 0, _, _, _, h => by cases h
  | fuel + 1, i, tries, r, h => by
    unfold fetchOne at h
    cases hr : replies i with
    | notFound e =>
      rw [hr] at h
      simp only at h
      split at h
      · cases h; exact ⟨i, Or.inr ⟨e, rfl, Or.inr hr⟩⟩
      · exact C71_query_sound replies fuel _ _ r h
    | err e => rw [hr] at h; cases h; exact ⟨i, Or.inr ⟨e, rfl, Or.inl hr⟩⟩
    | empty => rw [hr] at h; exact C71_query_sound replies fuel _ _ r h
    | proof p => rw [hr] at h; cases h; exact ⟨i, Or.inl hr⟩

/-- C71 is violated if the log server answers without proofs (a log with a single leaf has the empty audit path; the code treats an empty list of proofs as "ask again"): the worker asks for ever
without waiting, and `FetchInclusions` never returns. -/
theorem C71_empty_violated (replies : Nat → Reply ε π) (h : ∀ i, replies i = .empty) : ∀ fuel i tries, fetchOne replies fuel i tries = none
  | 0, _, _ => rfl
  | fuel + 1, i, tries => by rw [fetchOne, h i]; exact C71_empty_violated replies h fuel _ _

theorem fetch_spec {ν : Type} [DecidableEq ν] (data : Nat → δ) (name : δ → ν) (rs : List (Nat × Except ε π)) :
    let res := fetchInclusions data name rs
    (∀ n p, res.pois n = some p → ∃ j, (j, Except.ok p) ∈ rs ∧ name (data j) = n) ∧
    (∀ j p, (j, Except.ok p) ∈ rs → (res.pois (name (data j))).isSome) ∧
    ∃ failed : List (Nat × ε), failed = rs.filterMap (fun r => match r.2 with | .error e => some (r.1, e) | .ok _ => none) ∧
      res.failedLeaves = failed.map (fun r => data r.1) ∧ res.failedNames = failed.map (fun r => name (data r.1)) ∧ res.errs = failed.map Prod.snd := by
  have key : ∀ (rs : List (Nat × Except ε π)) (res0 : FetchResult ν δ ε π),
      let res := rs.foldl (FetchResult.add data name) res0
      (∀ n p, res.pois n = some p → res0.pois n = some p ∨ ∃ j, (j, Except.ok p) ∈ rs ∧ name (data j) = n) ∧
      (∀ n, (res0.pois n).isSome → (res.pois n).isSome) ∧
      (∀ j p, (j, Except.ok p) ∈ rs → (res.pois (name (data j))).isSome) ∧
      ∃ failed : List (Nat × ε), failed = rs.filterMap (fun r => match r.2 with | .error e => some (r.1, e) | .ok _ => none) ∧
        res.failedLeaves = res0.failedLeaves ++ failed.map (fun r => data r.1) ∧ res.failedNames = res0.failedNames ++ failed.map (fun r => name (data r.1)) ∧
        res.errs = res0.errs ++ failed.map Prod.snd := by
    intro rs
    induction rs with
    | nil => intro res0; simp
    | cons r rs ih =>
      intro res0
      obtain ⟨j, r⟩ := r
      simp only [List.foldl_cons]
      obtain ⟨h1, h2, h3, failed, h4, h5, h6, h7⟩ := ih (FetchResult.add data name res0 (j, r))
      cases r with
      | error e =>
        simp only [FetchResult.add] at h1 h2 h3 h5 h6 h7 ⊢
        refine ⟨fun n p hp => (h1 n p hp).imp id (fun ⟨j', a, b⟩ => ⟨j', List.mem_cons_of_mem _ a, b⟩), h2, ?_, (j, e) :: failed, ?_, ?_, ?_, ?_⟩
        · intro j' p hm
          rcases List.mem_cons.1 hm with hm | hm
          · cases hm
          · exact h3 j' p hm
        · rw [h4]; rfl
        · rw [h5]; simp
        · rw [h6]; simp
        · rw [h7]; simp
      | ok q =>
        simp only [FetchResult.add] at h1 h2 h3 h5 h6 h7 ⊢
        refine ⟨?_, ?_, ?_, failed, ?_, h5, h6, h7⟩
        · intro n p hp
          rcases h1 n p hp with h | ⟨j', a, b⟩
          · split at h
            · rename_i hn; cases h; exact Or.inr ⟨j, by simp, hn.symm⟩
            · exact Or.inl h
          · exact Or.inr ⟨j', List.mem_cons_of_mem _ a, b⟩
        · intro n hn
          apply h2
          split
          · rfl
          · exact hn
        · intro j' p hm
          rcases List.mem_cons.1 hm with hm | hm
          · cases hm
            apply h2
            simp
          · exact h3 j' p hm
        · rw [h4]; rfl
  obtain ⟨h1, _, h3, failed, h4, h5, h6, h7⟩ := key rs ⟨fun _ => none, [], [], []⟩
  refine ⟨fun n p hp => (h1 n p hp).resolve_left (by simp), h3, failed, h4, ?_, ?_, ?_⟩
  · rw [fetchInclusions, h5]; rfl
  · rw [fetchInclusions, h6]; rfl
  · rw [fetchInclusions, h7]; rfl

/-- C71: when `FetchInclusions` returns, every leaf has a proof in the map or is listed as failed with its error, the map holds only proofs that the log server returned for a leaf of that name, and every leaf was
asked for exactly once. -/
theorem C71_fetch_inclusions {ν : Type} [DecidableEq ν] {size nworkers k : Nat} {s : Farm (Except ε π)} (h : Reach size nworkers k s) (hd : s.phase = .done) (data : Nat → δ) (name : δ → ν) :
    let res := fetchInclusions data name s.received
    (s.answers.map Prod.fst).Perm (List.range size) ∧
    (∀ n p, res.pois n = some p → ∃ j, j < size ∧ (j, Except.ok p) ∈ s.answers ∧ name (data j) = n) ∧
    (∀ j, j < size → (∃ p, (j, Except.ok p) ∈ s.answers ∧ (res.pois (name (data j))).isSome) ∨
      ∃ e, (j, Except.error e) ∈ s.answers ∧ data j ∈ res.failedLeaves ∧ name (data j) ∈ res.failedNames ∧ e ∈ res.errs) ∧
    res.failedLeaves.length = res.errs.length ∧ res.failedNames.length = res.errs.length := by
  obtain ⟨h1, h2, _⟩ := done_spec h hd
  obtain ⟨f1, f2, failed, f3, f4, f5, f6⟩ := fetch_spec data name s.received
  refine ⟨h2, ?_, ?_, ?_, ?_⟩
  · intro n p hp
    obtain ⟨j, hj, hn⟩ := f1 n p hp
    have hm := h1.mem_iff.1 hj
    exact ⟨j, List.mem_range.1 (h2.mem_iff.1 (List.mem_map.2 ⟨_, hm, rfl⟩)), hm, hn⟩
  · intro j hj
    obtain ⟨⟨j', r⟩, hm, rfl⟩ := List.mem_map.1 (h2.mem_iff.2 (List.mem_range.2 hj))
    have hr := h1.mem_iff.2 hm
    cases r with
    | ok p => exact Or.inl ⟨p, hm, f2 j' p hr⟩
    | error e =>
      have hf : (j', e) ∈ failed := by
        rw [f3]
        exact List.mem_filterMap.2 ⟨(j', .error e), hr, rfl⟩
      refine Or.inr ⟨e, hm, ?_, ?_, ?_⟩
      · rw [f4]; exact List.mem_map.2 ⟨_, hf, rfl⟩
      · rw [f5]; exact List.mem_map.2 ⟨_, hf, rfl⟩
      · rw [f6]; exact List.mem_map.2 ⟨_, hf, rfl⟩
  · rw [f4, f6]; simp
  · rw [f5, f6]; simp

/-- A case: the second leaf is not found, the first has a proof. -/
example : ∃ s : Farm (Except Nat Nat), Reach 2 1 6 s ∧ s.phase = .done ∧ s.received = [(0, .ok 5), (1, .error 3)] := by
  have h : (start 2 1 : Farm (Except Nat Nat)).run [.take 0, .answer 0 (.ok 5), .deliver 0, .take 0, .answer 0 (.error 3), .deliver 0] =
      some ⟨2, 2, .done, [.idle], [(0, .ok 5), (1, .error 3)], [(0, .ok 5), (1, .error 3)]⟩ := rfl
  exact ⟨_, reach_run _ .init h, rfl, rfl⟩

example : fetchOne (fun i => if i < 3 then (.notFound 1 : Reply Nat Nat) else .proof (.ok 9)) 12 0 0 = some (.ok 9) := rfl
example : fetchOne (fun _ => (.notFound 1 : Reply Nat Nat)) 12 0 0 = some (.error 1) ∧ fetchOne (fun _ => (.notFound 1 : Reply Nat Nat)) 11 0 0 = none := ⟨rfl, rfl⟩

/-! ## C72 -/

/-- C72 (partial: all files can be decoded): all files are returned in order and removed from the folder. -/
theorem C72_read_all_partial (ds : List δ) : readRPCs (ds.map some) = (some ds, []) := by
  induction ds with
  | nil => rfl
  | cons d ds ih => simp [readRPCs, ih]

/-- C72 is violated if a file cannot be decoded: the call fails, and the certificates of the files before it are gone from the folder without having been queued. -/
theorem C72_lost_violated (ds : List δ) (fs : List (Option δ)) : readRPCs (ds.map some ++ none :: fs) = (none, none :: fs) := by
  induction ds with
  | nil => rfl
  | cons d ds ih => simp [readRPCs, ih]

/-- C72 (partial): the wait for the log ends if at some query, without errors before, the tree has exactly the expected size. -/
theorem C72_wait_partial (sizes : Nat → Option Nat) (prev added : Nat) (m : Nat) (hm : sizes m = some (prev + added)) (hb : ∀ i < m, sizes i ≠ none) : waitTree sizes prev added (m + 1) 0 = some true := by
  have : ∀ (d i : Nat), i + d = m → waitTree sizes prev added (d + 1) i = some true := by
    intro d
    induction d with
    | zero =>
      intro i hi
      have : i = m := by omega
      rw [waitTree, this, hm]
      simp
    | succ d ih =>
      intro i hi
      rw [waitTree]
      obtain ⟨n, hn⟩ := Option.ne_none_iff_exists'.1 (hb i (by omega))
      rw [hn]
      simp only
      split
      · rfl
      · exact ih (i + 1) (by omega)
  exact this m 0 (by omega)

/-- C72 is violated otherwise: if the tree grows beyond the expected size between two queries (another client adds a leaf), or stays below it (a leaf was already in the log), the wait never ends. -/
theorem C72_wait_violated (sizes : Nat → Option Nat) (prev added : Nat) (h : ∀ i, ∃ n, sizes i = some n ∧ n ≠ prev + added) : ∀ fuel i, waitTree sizes prev added fuel i = none
  | 0, _ => rfl
  | fuel + 1, i => by
    obtain ⟨n, hn, hne⟩ := h i
    rw [waitTree, hn]
    simp only [hne, if_false]
    exact C72_wait_violated sizes prev added h fuel (i + 1)

/-- Two leaves were expected, three came at once. -/
example : ∀ i : Nat, ∃ n, (fun i => if i = 0 then some 5 else some 8 : Nat → Option Nat) i = some n ∧ n ≠ 5 + 2 := by
  intro i
  by_cases h : i = 0
  · exact ⟨5, by simp [h], by omega⟩
  · exact ⟨8, by simp [h], by omega⟩

end Fpki.LogClient
