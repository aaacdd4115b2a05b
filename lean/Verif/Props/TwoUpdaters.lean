import Verif.Model.TwoUpdaters
import Verif.Props.SmtPast

/-!
# Several processes that update the same DB (C114)
-/
namespace Fpki.Two

/-! ## Specification -/

/-- A domain that is not dirty has its right payload in the tree. -/
def Synced (s : Sys) : Prop := ∀ d, s.dirty d = none → s.tree d = s.right d

/-- No process is between its coalescing and its cleaning. -/
def Idle (s : Sys) : Prop := ∀ i, s.procs i = .idle

/-- Nothing is inserted while any process is between its coalescing and its cleaning. -/
def Calm : Sys → List Ev → Prop
  | _, [] => True
  | s, e :: es => (∀ d v, e = .insert d v → Idle s) ∧ ∀ s', exec s e = some s' → Calm s' es

/-- Nothing is inserted for a domain. -/
def Untouched (d : Bytes) (es : List Ev) : Prop := ∀ v, Ev.insert d v ∉ es

/-- The updates of one process. -/
def wholeRun (i : Nat) : List Ev := [.coalesce i, .load i, .update i, .save i, .clean i]

/-! ## Lemmas -/

/-- The state of a process. -/
def Right (s : Sys) : Proc → Prop
  | .idle => True
  | .coalesced => ∀ d, s.dirty d ≠ some false
  | .loaded t => (∀ d, s.dirty d ≠ some false) ∧ ((∀ d, s.dirty d = none → t d = s.right d) ∨ ∀ d, s.dirty d = none)
  | .updated t => (∀ d, s.dirty d ≠ some false) ∧ t = s.right
  | .saved => (∀ d, s.dirty d ≠ some false) ∧ s.tree = s.right

structure Inv (s : Sys) : Prop where
  synced : Synced s
  fresh : ∀ d, s.dirty d ≠ some false → s.payload d = s.right d
  procs : ∀ i, Right s (s.procs i)

theorem set_same (f : Nat → Proc) (i : Nat) (p : Proc) : set f i p i = p := by simp [set]
theorem set_other (f : Nat → Proc) {i j : Nat} (p : Proc) (h : j ≠ i) : set f i p j = f j := by simp [set, h]

/-- A process that changes nothing but its own state. -/
theorem right_set {s : Sys} {i : Nat} {p : Proc} (h : ∀ j, Right s (s.procs j)) (hp : Right s p) : ∀ j, Right { s with procs := set s.procs i p } ((set s.procs i p) j) := by
  intro j
  by_cases hj : j = i
  · subst hj; rw [set_same]; cases p <;> exact hp
  · rw [set_other _ _ hj]
    have := h j
    cases hq : s.procs j with
    | _ => rw [hq] at this; exact this

theorem inv_start : Inv start := ⟨fun _ _ => rfl, fun _ _ => rfl, fun _ => trivial⟩

theorem exec_inv {s s' : Sys} {e : Ev} (hi : Inv s) (hc : ∀ d v, e = .insert d v → Idle s) (he : exec s e = some s') : Inv s' := by
  cases e with
  | insert d v =>
    have hid := hc d v rfl
    simp only [exec, Option.some.injEq] at he
    subst he
    refine ⟨fun x hx => ?_, fun x hx => ?_, fun i => ?_⟩
    · dsimp only at hx ⊢
      by_cases h : x = d
      · rw [if_pos h] at hx; cases hx
      · rw [if_neg h] at hx ⊢; exact hi.synced x hx
    · dsimp only at hx ⊢
      by_cases h : x = d
      · rw [if_pos h] at hx; exact absurd rfl hx
      · rw [if_neg h] at hx ⊢; exact hi.fresh x hx
    · dsimp only; rw [hid i]; trivial
  | coalesce i =>
    simp only [exec] at he
    split at he
    · cases he
      have hne : ∀ d, (if s.dirty d = some false then some true else s.dirty d) ≠ some false := by
        intro d; split
        · simp
        · assumption
      have hnone : ∀ d, (if s.dirty d = some false then some true else s.dirty d) = none ↔ s.dirty d = none := by
        intro d
        by_cases h : s.dirty d = some false
        · rw [if_pos h, h]; simp
        · rw [if_neg h]
      refine ⟨fun x hx => hi.synced x ((hnone x).1 hx), fun x hx => ?_, fun j => ?_⟩
      · dsimp only
        by_cases h : s.dirty x = some false
        · rw [if_pos h]
        · rw [if_neg h]; exact hi.fresh x h
      · dsimp only
        by_cases hj : j = i
        · subst hj; rw [set_same]; exact hne
        · rw [set_other _ _ hj]
          have := hi.procs j
          cases hq : s.procs j with
          | idle => trivial
          | coalesced => exact hne
          | loaded t =>
            rw [hq] at this
            refine ⟨hne, ?_⟩
            rcases this.2 with h | h
            · exact Or.inl (fun x hx => h x ((hnone x).1 hx))
            · exact Or.inr (fun x => (hnone x).2 (h x))
          | updated t => rw [hq] at this; exact ⟨hne, this.2⟩
          | saved => rw [hq] at this; exact ⟨hne, this.2⟩
    · cases he
  | load i =>
    simp only [exec] at he
    split at he
    · rename_i hq
      cases he
      have hr := hi.procs i
      rw [hq] at hr
      exact ⟨hi.synced, hi.fresh, right_set hi.procs ⟨hr, Or.inl hi.synced⟩⟩
    · cases he
  | update i =>
    simp only [exec] at he
    split at he
    · rename_i t hq
      cases he
      have hr := hi.procs i
      rw [hq] at hr
      refine ⟨hi.synced, hi.fresh, right_set hi.procs ?_⟩
      split
      · rename_i hd
        obtain ⟨d, hd⟩ := hd
        refine ⟨hr.1, funext fun x => ?_⟩
        rcases hr.2 with h | h
        · by_cases hx : s.dirty x = none
          · rw [if_pos hx]; exact h x hx
          · rw [if_neg hx]; exact hi.fresh x (hr.1 x)
        · exact absurd (h d) hd
      · rename_i hd
        refine ⟨hr.1, funext fun x => hi.synced x ?_⟩
        by_cases hx : s.dirty x = none
        · exact hx
        · exact absurd ⟨x, hx⟩ hd
    · cases he
  | save i =>
    simp only [exec] at he
    split at he
    · rename_i t hq
      cases he
      have hr := hi.procs i
      rw [hq] at hr
      obtain ⟨h1, rfl⟩ := hr
      refine ⟨fun _ _ => rfl, hi.fresh, fun j => ?_⟩
      dsimp only
      by_cases hj : j = i
      · subst hj; rw [set_same]; exact ⟨h1, rfl⟩
      · rw [set_other _ _ hj]
        have := hi.procs j
        cases hq : s.procs j with
        | saved => exact ⟨h1, rfl⟩
        | _ => rw [hq] at this; exact this
    · cases he
  | clean i =>
    simp only [exec] at he
    split at he
    · rename_i hq
      cases he
      have hr := hi.procs i
      rw [hq] at hr
      refine ⟨fun x _ => congrFun hr.2 x, fun x _ => hi.fresh x (hr.1 x), fun j => ?_⟩
      dsimp only
      by_cases hj : j = i
      · subst hj; rw [set_same]; trivial
      · rw [set_other _ _ hj]
        have := hi.procs j
        cases hq : s.procs j with
        | idle => trivial
        | coalesced => exact fun d h => by cases h
        | loaded t => exact ⟨fun d h => (by cases h), Or.inr (fun _ => rfl)⟩
        | updated t => rw [hq] at this; exact ⟨fun d h => (by cases h), this.2⟩
        | saved => rw [hq] at this; exact ⟨fun d h => (by cases h), this.2⟩
    · cases he
  | crash i =>
    simp only [exec, Option.some.injEq] at he
    subst he
    exact ⟨hi.synced, hi.fresh, right_set hi.procs trivial⟩

theorem run_inv : ∀ (es : List Ev) {s s' : Sys}, Inv s → Calm s es → run s es = some s' → Inv s'
  | [], _, _, hi, _, he => by cases he; exact hi
  | e :: es, s, s', hi, hc, he => by
    simp only [run] at he
    cases hq : exec s e with
    | none => rw [hq] at he; cases he
    | some s1 =>
      rw [hq] at he
      exact run_inv es (exec_inv hi hc.1 hq) (hc.2 s1 hq) he

theorem run_append : ∀ (a b : List Ev) (s : Sys), run s (a ++ b) = (run s a).bind (fun s => run s b)
  | [], _, _ => rfl
  | e :: a, b, s => by
    simp only [List.cons_append, run]
    cases exec s e with
    | none => rfl
    | some s1 => exact run_append a b s1

/-! ## C114 -/

/-- C114: any number of processes may update the same DB at the same time. Whatever their order and wherever they crash, a domain that is not dirty has its right payload in the tree.
Proved if nothing is inserted while any process is between its coalescing and its cleaning (`C114_forgotten_violated`), and for the content of the tree, not for its rows (`C114_rows_violated`). -/
theorem C114_synced_partial (es : List Ev) (hc : Calm start es) {s : Sys} (h : run start es = some s) : Synced s := (run_inv es inv_start hc h).synced

/-- C114: a whole run of one process puts the right payload of every domain into the tree, whatever the processes did before. -/
theorem C114_whole_run_partial (es : List Ev) (i : Nat) (hc : Calm start (es ++ wholeRun i)) {s : Sys} (h : run start (es ++ wholeRun i) = some s) : s.tree = s.right ∧ ∀ d, s.dirty d = none := by
  have hs : ∀ d, s.dirty d = none := by
    have hsplit : es ++ wholeRun i = (es ++ [.coalesce i, .load i, .update i, .save i]) ++ [.clean i] := by simp [wholeRun]
    rw [hsplit, run_append] at h
    cases hq : run start (es ++ [.coalesce i, .load i, .update i, .save i]) with
    | none => rw [hq] at h; cases h
    | some s1 =>
      rw [hq] at h
      simp only [Option.bind_some, run, exec] at h
      split at h
      · simp only [Option.bind_some, Option.some.injEq] at h
        subst h
        exact fun _ => rfl
      · cases h
  have := C114_synced_partial _ hc h
  exact ⟨funext fun d => this d (hs d), hs⟩

/-- A domain whose payload in the tree is not right, which is not dirty, and for which no process has anything else. -/
structure Forgotten (s : Sys) (d : Bytes) : Prop where
  clean : s.dirty d = none
  wrong : s.tree d ≠ s.right d
  loaded : ∀ i t, s.procs i = .loaded t → t d = s.tree d
  updated : ∀ i t, s.procs i = .updated t → t d = s.tree d

theorem forgotten_of {s : Sys} {d : Bytes} (hid : Idle s) (h1 : s.dirty d = none) (h2 : s.tree d ≠ s.right d) : Forgotten s d ∧ Idle s :=
  ⟨⟨h1, h2, fun j t h => (by rw [hid j] at h; cases h), fun j t h => (by rw [hid j] at h; cases h)⟩, hid⟩

theorem forgotten_exec {s s' : Sys} {d : Bytes} {e : Ev} (hf : Forgotten s d) (hu : ∀ v, e ≠ .insert d v) (he : exec s e = some s') : Forgotten s' d := by
  have keep : ∀ {i : Nat} {p : Proc} {f : Bytes → Option Bytes}, (∀ t, p = .loaded t → t d = s.tree d) → (∀ t, p = .updated t → t d = s.tree d) →
      (∀ j t, set s.procs i p j = .loaded t → t d = s.tree d) ∧ (∀ j t, set s.procs i p j = .updated t → t d = s.tree d) := by
    intro i p f h1 h2
    refine ⟨fun j t hj => ?_, fun j t hj => ?_⟩ <;> by_cases hji : j = i
    · subst hji; rw [set_same] at hj; exact h1 t hj
    · rw [set_other _ _ hji] at hj; exact hf.loaded j t hj
    · subst hji; rw [set_same] at hj; exact h2 t hj
    · rw [set_other _ _ hji] at hj; exact hf.updated j t hj
  cases e with
  | insert d' v =>
    have hd : d ≠ d' := fun h => hu v (by rw [h])
    simp only [exec, Option.some.injEq] at he
    subst he
    exact ⟨by dsimp only; rw [if_neg hd]; exact hf.clean, by dsimp only; rw [if_neg hd]; exact hf.wrong, hf.loaded, hf.updated⟩
  | coalesce i =>
    simp only [exec] at he
    split at he
    · cases he
      obtain ⟨k1, k2⟩ := keep (i := i) (p := .coalesced) (f := s.tree) (fun t h => by cases h) (fun t h => by cases h)
      exact ⟨by dsimp only; rw [if_neg (by rw [hf.clean]; simp)]; exact hf.clean, hf.wrong, k1, k2⟩
    · cases he
  | load i =>
    simp only [exec] at he
    split at he
    · cases he
      obtain ⟨k1, k2⟩ := keep (i := i) (p := .loaded s.tree) (f := s.tree) (fun t h => by cases h; rfl) (fun t h => by cases h)
      exact ⟨hf.clean, hf.wrong, k1, k2⟩
    · cases he
  | update i =>
    simp only [exec] at he
    split at he
    · rename_i t hq
      cases he
      split
      · obtain ⟨k1, k2⟩ := keep (i := i) (p := .updated (fun x => if s.dirty x = none then t x else s.payload x)) (f := s.tree) (fun t h => by cases h)
          (fun t' h => by cases h; dsimp only; rw [if_pos hf.clean]; exact hf.loaded i t hq)
        exact ⟨hf.clean, hf.wrong, k1, k2⟩
      · obtain ⟨k1, k2⟩ := keep (i := i) (p := .saved) (f := s.tree) (fun t h => by cases h) (fun t h => by cases h)
        exact ⟨hf.clean, hf.wrong, k1, k2⟩
    · cases he
  | save i =>
    simp only [exec] at he
    split at he
    · rename_i t hq
      cases he
      have ht := hf.updated i t hq
      obtain ⟨k1, k2⟩ := keep (i := i) (p := .saved) (f := s.tree) (fun t h => by cases h) (fun t h => by cases h)
      exact ⟨hf.clean, by dsimp only; rw [ht]; exact hf.wrong, fun j t' h => (k1 j t' h).trans ht.symm, fun j t' h => (k2 j t' h).trans ht.symm⟩
    · cases he
  | clean i =>
    simp only [exec] at he
    split at he
    · cases he
      obtain ⟨k1, k2⟩ := keep (i := i) (p := .idle) (f := s.tree) (fun t h => by cases h) (fun t h => by cases h)
      exact ⟨rfl, hf.wrong, k1, k2⟩
    · cases he
  | crash i =>
    simp only [exec, Option.some.injEq] at he
    subst he
    obtain ⟨k1, k2⟩ := keep (i := i) (p := .idle) (f := s.tree) (fun t h => by cases h) (fun t h => by cases h)
    exact ⟨hf.clean, hf.wrong, k1, k2⟩

/-- C114: a domain that was forgotten stays so, however many updates follow, until it is inserted again. -/
theorem C114_stays_forgotten (d : Bytes) : ∀ (es : List Ev) {s s' : Sys}, Forgotten s d → Untouched d es → run s es = some s' → Forgotten s' d
  | [], _, _, hf, _, he => by cases he; exact hf
  | e :: es, s, s', hf, hu, he => by
    simp only [run] at he
    cases hq : exec s e with
    | none => rw [hq] at he; cases he
    | some s1 =>
      rw [hq] at he
      exact C114_stays_forgotten d es (forgotten_exec hf (fun v h => hu v (h ▸ List.mem_cons_self ..)) hq) (fun v hv => hu v (List.mem_cons_of_mem _ hv)) he

/-- C114 is violated if something is inserted while a process is updating. Whenever this happens after its coalescing and before its cleaning, the insertion is lost: the process ends without an error, the domain is not dirty any more and the tree has its old payload (`C114_stays_forgotten`). -/
theorem C114_forgotten_violated (es : List Ev) (hc : Calm start es) {s : Sys} (h : run start es = some s) (hidle : Idle s) (hd : ∃ x, s.dirty x ≠ none) (i : Nat) (d : Bytes) (v : Option Bytes) (hv : v ≠ s.right d)
    (pre post : List Ev) (hp : [.load i, .update i, .save i, .clean i] = pre ++ post) (hne : post ≠ []) :
    ∃ s', run s (.coalesce i :: pre ++ .insert d v :: post) = some s' ∧ s'.right d = v ∧ Forgotten s' d ∧ Idle s' := by
  have hi := run_inv es inv_start hc h
  have hi0 := hidle i
  obtain ⟨x0, hx0⟩ := hd
  have hdirty : ∀ x, (if s.dirty x = some false then some true else s.dirty x) = none ↔ s.dirty x = none := by
    intro x
    by_cases h : s.dirty x = some false
    · rw [if_pos h, h]; simp
    · rw [if_neg h]
  have hpay : ∀ x, (if s.dirty x = some false then s.right x else s.payload x) = s.right x := by
    intro x
    by_cases h : s.dirty x = some false
    · rw [if_pos h]
    · rw [if_neg h]; exact hi.fresh x h
  have hex : ∃ x, (if s.dirty x = some false then some true else s.dirty x) ≠ none := ⟨x0, fun h => hx0 ((hdirty x0).1 h)⟩
  have hex2 : ∃ x, (if x = d then some false else if s.dirty x = some false then some true else s.dirty x) ≠ none := ⟨d, by simp⟩
  have hk : ∃ k, k < 4 ∧ pre = [Ev.load i, .update i, .save i, .clean i].take k ∧ post = [Ev.load i, .update i, .save i, .clean i].drop k := by
    refine ⟨pre.length, ?_, by rw [hp]; simp, by rw [hp]; simp⟩
    have : pre.length + post.length = 4 := by rw [← List.length_append, ← hp]; rfl
    have := List.length_pos_iff.2 hne
    omega
  have htree : ∀ x, (if s.dirty x = none then s.tree x else s.right x) = s.right x := by
    intro x
    split
    · exact hi.synced x (by assumption)
    · rfl
  have hset : ∀ {f : Nat → Proc}, (∀ j, j ≠ i → f j = .idle) → f i = .idle → (∀ j, f j = .idle) := by
    intro f h1 h2 j
    by_cases hj : j = i
    · rw [hj]; exact h2
    · exact h1 j hj
  obtain ⟨k, hk4, rfl, rfl⟩ := hk
  have hcases : k = 0 ∨ k = 1 ∨ k = 2 ∨ k = 3 := by omega
  rcases hcases with rfl | rfl | rfl | rfl
  all_goals
    simp only [List.take_zero, List.take_succ_cons, List.drop_zero, List.drop_succ_cons, List.nil_append, List.cons_append, run, exec, hi0, Option.bind_some, set_same, if_pos hex, if_pos hex2]
    refine ⟨_, rfl, by simp, forgotten_of (hset (fun j hj => by simp [set, hj, hidle j]) (by simp [set])) rfl ?_⟩
    simp only [hdirty, hpay, if_true, htree]
    first
      | exact fun h => hv h.symm
      | (simp; exact fun h => hv h.symm)

/-- C114 is violated if two processes update at the same time. The process `j` inserts something (say a policy), coalesces, updates the tree and cleans up, all without an error; but the process `i`, which had read the dirty domains before, saves its root after that of `j`: the insertion is not in the tree and never will be. -/
theorem C114_overwritten_violated (es : List Ev) (hc : Calm start es) {s : Sys} (h : run start es = some s) (hidle : Idle s) (hd : ∃ x, s.dirty x ≠ none) (i j : Nat) (hij : i ≠ j) (d : Bytes) (v : Option Bytes) (hv : v ≠ s.right d) :
    ∃ s', run s [.coalesce i, .load i, .update i, .insert d v, .coalesce j, .load j, .update j, .save j, .save i, .clean i, .clean j] = some s' ∧ s'.right d = v ∧ Forgotten s' d ∧ Idle s' := by
  have hi := run_inv es inv_start hc h
  have hi0 := hidle i
  have hj0 := hidle j
  have hji : j ≠ i := fun h => hij h.symm
  obtain ⟨x0, hx0⟩ := hd
  have hdirty : ∀ x, (if s.dirty x = some false then some true else s.dirty x) = none ↔ s.dirty x = none := by
    intro x
    by_cases h : s.dirty x = some false
    · rw [if_pos h, h]; simp
    · rw [if_neg h]
  have hpay : ∀ x, (if s.dirty x = some false then s.right x else s.payload x) = s.right x := by
    intro x
    by_cases h : s.dirty x = some false
    · rw [if_pos h]
    · rw [if_neg h]; exact hi.fresh x h
  have hex : ∃ x, (if s.dirty x = some false then some true else s.dirty x) ≠ none := ⟨x0, fun h => hx0 ((hdirty x0).1 h)⟩
  have hex2 : ∃ x, (if (if x = d then some false else if s.dirty x = some false then some true else s.dirty x) = some false then some true else
      if x = d then some false else if s.dirty x = some false then some true else s.dirty x) ≠ none := ⟨d, by simp⟩
  have htree : ∀ x, (if s.dirty x = none then s.tree x else s.right x) = s.right x := by
    intro x
    split
    · exact hi.synced x (by assumption)
    · rfl
  simp only [run, exec, hi0, hj0, Option.bind_some, set_same, set_other _ _ hij, set_other _ _ hji, if_pos hex, if_pos hex2]
  refine ⟨_, rfl, by simp, forgotten_of (fun k => ?_) rfl ?_⟩
  · by_cases hk : k = i
    · subst hk; simp [set, hij]
    · by_cases hk2 : k = j
      · subst hk2; simp [set]
      · simp [set, hk, hk2, hidle k]
  · simp only [hdirty, hpay, if_true, htree]
    exact fun h => hv h.symm

/-! ### Concrete cases -/

theorem exSet (f : Nat → Proc) (i : Nat) (p q : Proc) : set (set f i p) i q = set f i q := by
  funext j
  unfold set
  split <;> rfl

/-- The hypotheses of the theorems hold: two processes that run at the same time, a crash, then an insertion. -/
theorem exCalm : ∃ s, run start [.insert [1] (some [7]), .coalesce 0, .coalesce 1, .load 1, .load 0, .update 1, .crash 1, .update 0, .save 0, .clean 0, .insert [2] (some [8])] = some s ∧
    Calm start [.insert [1] (some [7]), .coalesce 0, .coalesce 1, .load 1, .load 0, .update 1, .crash 1, .update 0, .save 0, .clean 0, .insert [2] (some [8])] ∧ Idle s ∧ (∃ x, s.dirty x ≠ none) ∧ some [9] ≠ s.right [1] := by
  have e1 : ∃ x : Bytes, (if (if x = [1] then some false else none) = some false then some true else if x = [1] then some false else none) ≠ none := ⟨[1], by simp⟩
  have e2 : ∃ x : Bytes, (if (if (if x = [1] then some false else none) = some false then some true else if x = [1] then some false else none) = some false then some true else
    if (if x = [1] then some false else none) = some false then some true else if x = [1] then some false else none) ≠ none := ⟨[1], by simp⟩
  refine ⟨_, by simp only [run, exec, start, Option.bind_some, set_same, set_other _ _ (show (0 : Nat) ≠ 1 by decide), set_other _ _ (show (1 : Nat) ≠ 0 by decide), if_pos e1, if_pos e2]; rfl, ?_, fun k => ?_, ⟨[2], by simp⟩, by simp⟩
  · have hno : ∀ (e : Ev) (s : Sys), (∀ d v, e ≠ .insert d v) → ∀ d v, e = .insert d v → Idle s := fun e s h d v he => absurd he (h d v)
    simp only [Calm, exec, start, Option.some.injEq, forall_eq', set_same, set_other _ _ (show (0 : Nat) ≠ 1 by decide), set_other _ _ (show (1 : Nat) ≠ 0 by decide), if_pos e1, if_pos e2]
    refine ⟨fun _ _ _ _ => rfl, hno _ _ (by simp), hno _ _ (by simp), hno _ _ (by simp), hno _ _ (by simp), hno _ _ (by simp), hno _ _ (by simp), hno _ _ (by simp), hno _ _ (by simp), hno _ _ (by simp), fun _ _ _ k => ?_, trivial⟩
    dsimp only
    by_cases hk : k = 0
    · subst hk; simp [set]
    · by_cases hk2 : k = 1
      · subst hk2; simp [set]
      · simp [set, hk, hk2]
  · dsimp only
    by_cases hk : k = 0
    · subst hk; simp [set]
    · by_cases hk2 : k = 1
      · subst hk2; simp [set]
      · simp [set, hk, hk2]

/-- The hypotheses of `C114_whole_run_partial`. -/
example : ∃ s, run start ([.insert [1] (some [7])] ++ wholeRun 0) = some s ∧ Calm start ([.insert [1] (some [7])] ++ wholeRun 0) ∧ s.tree [1] = some [7] := by
  have e1 : ∃ x : Bytes, (if (if x = [1] then some false else none) = some false then some true else if x = [1] then some false else none) ≠ none := ⟨[1], by simp⟩
  refine ⟨_, by simp only [wholeRun, List.cons_append, List.nil_append, run, exec, start, Option.bind_some, set_same, if_pos e1]; rfl, ?_, by simp⟩
  have hno : ∀ (e : Ev) (s : Sys), (∀ d v, e ≠ .insert d v) → ∀ d v, e = .insert d v → Idle s := fun e s h d v he => absurd he (h d v)
  simp only [wholeRun, List.cons_append, List.nil_append, Calm, exec, start, Option.some.injEq, forall_eq', set_same, if_pos e1]
  exact ⟨fun _ _ _ _ => rfl, hno _ _ (by simp), hno _ _ (by simp), hno _ _ (by simp), hno _ _ (by simp), hno _ _ (by simp), trivial⟩

end Fpki.Two

/-! ## The rows of the tree -/

namespace Fpki.SmtStore
open Fpki.Smt (KVs Key b32 run)

/-- Two processes open the trie of the same root; the first updates it and commits; the second, which has read its batches before that, updates its own and commits. The tables and root that the second leaves. -/
def twoCommits (c : Cfg) (y : Sys) (kvs1 kvs2 : KVs) : Option Trie :=
  match (newTrie y.saved y.tr.st.db).update c kvs1, (newTrie y.saved y.tr.st.db).update c kvs2 with
  | some t1, some t2 => some (Trie.commit ⟨t2.root, { t2.st with db := t1.commit.st.db }⟩)
  | _, _ => none

/-- What a new process reads in the DB that `twoCommits` leaves after the acts `acts`. -/
def readTwo (acts : List Act) (kvs1 kvs2 : KVs) (key : Key) : Option (Option Bytes) :=
  (tale exCfg acts).bind (fun y => (twoCommits exCfg y kvs1 kvs2).bind (fun t => ((newTrie t.root t.st.db).get exCfg key).map Prod.fst))

def exThree : KVs := [(b32 0x00, some (b32 1)), (b32 0x08, some (b32 2)), (b32 0x80, some (b32 3))]

/-- C114 is violated for the rows of the tree: with two processes that update at the same time, the saved root can refer to rows that the other process has deleted. Here one changes the key 00.. and the other 80..: the trie of the latter gives an error for 00.. and also for 08.., which nobody has changed. Without the first process there are no errors. -/
theorem C114_rows_violated : readTwo [.update exThree, .commit] [(b32 0x00, some (b32 9))] [(b32 0x80, some (b32 9))] (b32 0x00) = none ∧
    readTwo [.update exThree, .commit] [(b32 0x00, some (b32 9))] [(b32 0x80, some (b32 9))] (b32 0x08) = none ∧
    readTwo [.update exThree, .commit] [(b32 0x00, some (b32 9))] [(b32 0x80, some (b32 9))] (b32 0x80) = some (some (b32 9)) ∧
    readTwo [.update exThree, .commit] [] [(b32 0x80, some (b32 9))] (b32 0x08) = some (some (b32 2)) := by
  refine ⟨?_, ?_, ?_, ?_⟩ <;> decide +kernel

end Fpki.SmtStore
