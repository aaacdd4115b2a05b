import Mathlib.Data.List.Perm.Basic
import Verif.Model.Bench

/-! Lemmas for `Verif.Props.Bench`: the workers. -/
namespace Fpki.Bench

theorem split_at {l : List α} {w : Nat} {x : α} (h : l[w]? = some x) : ∃ a b, l = a ++ x :: b ∧ ∀ y, l.set w y = a ++ y :: b := by
  induction l generalizing w with
  | nil => simp at h
  | cons z l ih =>
    cases w with
    | zero => simp at h; subst h; exact ⟨[], l, rfl, fun _ => rfl⟩
    | succ w =>
      simp at h
      obtain ⟨a, b, h1, h2⟩ := ih h
      exact ⟨z :: a, b, by rw [h1]; rfl, fun y => by rw [List.set_cons_succ, h2]; rfl⟩

/-- The partition a worker is busy with. -/
def Worker.part : Worker → Option Nat
  | .busy p => some p
  | _ => none

/-- The partitions in work. -/
def busyOf (ws : List Worker) : List Nat := ws.filterMap Worker.part

/-- The workers that have not ended. -/
def alive (ws : List Worker) : Nat := (ws.filter (fun x => decide (x ≠ Worker.gone))).length

/-- What holds at every moment, after `k` steps, with `W` workers. -/
structure Inv (n W k : Nat) (s : Farm ε) : Prop where
  next_le : s.next ≤ n
  closed : s.closed = true → s.next = n
  calls : s.calls = List.range s.next
  work : (busyOf s.workers ++ s.outs.map Prod.fst).Perm (List.range s.next)
  errs : ∀ p e, s.errs p = some e ↔ (p, some e) ∈ s.outs
  gone : Worker.gone ∈ s.workers → s.closed = true
  len : s.workers.length = W
  result : ∀ r, s.result = some r → s.closed = true ∧ (∀ x ∈ s.workers, x = Worker.gone) ∧ r = (List.range n).filterMap (fun p => (s.errs p).map (fun e => (p, e)))
  steps : k + 2 * (n - s.next) + (busyOf s.workers).length + (if s.closed = true then 0 else 1) + alive s.workers + (if s.result = none then 1 else 0) = 2 * n + W + 2

theorem busy_split (a b : List Worker) (x : Worker) : busyOf (a ++ x :: b) = busyOf a ++ ((Worker.part x).toList ++ busyOf b) := by
  unfold busyOf
  rw [List.filterMap_append, List.filterMap_cons]
  cases Worker.part x <;> rfl

theorem alive_split (a b : List Worker) (x : Worker) : alive (a ++ x :: b) = alive a + alive b + (if x = Worker.gone then 0 else 1) := by
  unfold alive
  rw [List.filter_append, List.filter_cons, List.length_append]
  by_cases h : x = Worker.gone <;> simp [h] <;> omega

theorem inv_start {n : Nat} {workers : Int} {s : Farm ε} (h : start ε n workers = some s) : Inv n (min workers.toNat n) 0 s := by
  unfold start at h
  split at h
  · cases h
  · simp only [Option.some.injEq] at h
    subst h
    have hb : ∀ m, busyOf (List.replicate m Worker.idle) = [] := by
      intro m; induction m with
      | zero => rfl
      | succ m ih => exact ih
    have ha : ∀ m, alive (List.replicate m Worker.idle) = m := by
      intro m; unfold alive; rw [List.filter_replicate]; simp
    refine ⟨Nat.zero_le _, (by intro h; cases h), rfl, by rw [hb]; exact List.Perm.refl _, by intro p e; simp, ?_, List.length_replicate, (by intro r h; cases h), ?_⟩
    · intro h; have := List.eq_of_mem_replicate h; cases this
    · dsimp only; rw [hb, ha]; simp; omega

theorem inv_step {n W k : Nat} {s t : Farm ε} {e : Event ε} (I : Inv n W k s) (h : exec n s e = some t) : Inv n W (k + 1) t := by
  cases e with
  | send w =>
    simp only [exec] at h
    split at h
    · rename_i hc
      obtain ⟨hn, hw⟩ := hc
      simp only [Option.some.injEq] at h
      subst h
      obtain ⟨a, b, h1, h2⟩ := split_at hw
      have hcl : s.closed = false := by
        cases hcl : s.closed with
        | false => rfl
        | true => have := I.closed hcl; omega
      have hb : busyOf s.workers = busyOf a ++ busyOf b := by rw [h1, busy_split]; rfl
      have hb' : busyOf (s.workers.set w (.busy s.next)) = busyOf a ++ (s.next :: busyOf b) := by rw [h2, busy_split]; rfl
      have hal : alive (s.workers.set w (.busy s.next)) = alive s.workers := by rw [h2, h1, alive_split, alive_split]; rfl
      have hst := I.steps
      refine ⟨hn, fun hx => ?_, ?_, ?_, I.errs, ?_, by rw [List.length_set]; exact I.len, ?_, ?_⟩
      · dsimp only at hx; rw [hcl] at hx; cases hx
      · dsimp only; rw [I.calls, List.range_succ]
      · dsimp only
        rw [hb', List.range_succ]
        have hp := I.work
        rw [hb] at hp
        have : (busyOf a ++ (s.next :: busyOf b) ++ s.outs.map Prod.fst).Perm ((busyOf a ++ busyOf b ++ s.outs.map Prod.fst) ++ [s.next]) := by
          rw [List.append_assoc, List.cons_append]
          refine List.perm_middle.trans ?_
          rw [← List.append_assoc]
          exact (List.perm_append_singleton _ _).symm
        exact this.trans (hp.append_right _)
      · intro hg
        dsimp only at hg ⊢
        rw [h2] at hg
        apply I.gone
        rw [h1]
        rcases List.mem_append.1 hg with hg | hg
        · exact List.mem_append_left _ hg
        · rcases List.mem_cons.1 hg with hg | hg
          · cases hg
          · exact List.mem_append_right _ (List.mem_cons_of_mem _ hg)
      · intro r hr
        have := (I.result r hr).1
        rw [hcl] at this; cases this
      · dsimp only
        rw [hal, hb']
        rw [hb] at hst
        rw [hcl] at hst ⊢
        simp only [List.length_append, List.length_cons] at hst ⊢
        omega
    · cases h
  | finish w o =>
    simp only [exec] at h
    split at h
    · rename_i p hw
      simp only [Option.some.injEq] at h
      subst h
      obtain ⟨a, b, h1, h2⟩ := split_at hw
      have hb : busyOf s.workers = busyOf a ++ (p :: busyOf b) := by rw [h1, busy_split]; rfl
      have hb' : busyOf (s.workers.set w .idle) = busyOf a ++ busyOf b := by rw [h2, busy_split]; rfl
      have hal : alive (s.workers.set w .idle) = alive s.workers := by rw [h2, h1, alive_split, alive_split]; rfl
      have hp := I.work
      have hst := I.steps
      have hnd : (busyOf s.workers ++ s.outs.map Prod.fst).Nodup := hp.nodup_iff.2 List.nodup_range
      have hno : ∀ e, (p, e) ∉ s.outs := by
        intro e he
        rw [List.nodup_append] at hnd
        exact hnd.2.2 p (by rw [hb]; simp) p (List.mem_map.2 ⟨(p, e), he, rfl⟩) rfl
      have hres : s.result = none := by
        cases hr : s.result with
        | none => rfl
        | some r =>
          have := (I.result r hr).2.1 (.busy p) (by rw [h1]; simp)
          cases this
      refine ⟨I.next_le, I.closed, I.calls, ?_, ?_, ?_, by rw [List.length_set]; exact I.len, ?_, ?_⟩
      · dsimp only
        rw [hb']
        rw [hb] at hp
        refine List.Perm.trans ?_ hp
        rw [List.map_append, List.map_cons, List.map_nil, List.append_assoc (busyOf a) (p :: busyOf b), List.cons_append]
        refine List.Perm.trans ?_ List.perm_middle.symm
        rw [← List.append_assoc, ← List.append_assoc]
        exact List.perm_append_singleton _ _
      · intro q x
        dsimp only
        rw [List.mem_append, List.mem_singleton]
        by_cases hq : q = p
        · subst hq
          rw [if_pos rfl]
          cases o with
          | none =>
            dsimp only
            rw [I.errs]
            constructor
            · exact Or.inl
            · rintro (h | h)
              · exact h
              · cases h
          | some y =>
            dsimp only
            constructor
            · intro h; cases h; exact Or.inr rfl
            · rintro (h | h)
              · exact absurd h (hno _)
              · cases h; rfl
        · rw [if_neg hq, I.errs]
          constructor
          · exact Or.inl
          · rintro (h | h)
            · exact h
            · cases h; exact absurd rfl hq
      · intro hg
        dsimp only at hg ⊢
        rw [h2] at hg
        apply I.gone
        rw [h1]
        rcases List.mem_append.1 hg with hg | hg
        · exact List.mem_append_left _ hg
        · rcases List.mem_cons.1 hg with hg | hg
          · cases hg
          · exact List.mem_append_right _ (List.mem_cons_of_mem _ hg)
      · intro r hr
        dsimp only at hr
        rw [hres] at hr; cases hr
      · dsimp only
        rw [hal, hb']
        rw [hb] at hst
        simp only [List.length_append, List.length_cons] at hst ⊢
        omega
    · cases h
  | close =>
    simp only [exec] at h
    split at h
    · rename_i hc
      simp only [Option.some.injEq] at h
      subst h
      have hst := I.steps
      refine ⟨I.next_le, fun _ => hc.1, I.calls, I.work, I.errs, fun _ => rfl, I.len, ?_, ?_⟩
      · intro r hr
        have := (I.result r hr).1
        rw [hc.2] at this; cases this
      · dsimp only
        rw [hc.2] at hst
        rw [if_neg (by decide)] at hst
        rw [if_pos rfl]
        omega
    · cases h
  | exit w =>
    simp only [exec] at h
    split at h
    · rename_i hc
      simp only [Option.some.injEq] at h
      subst h
      obtain ⟨a, b, h1, h2⟩ := split_at hc.2
      have hb : busyOf (s.workers.set w .gone) = busyOf s.workers := by rw [h2, h1, busy_split, busy_split]; rfl
      have hal : alive (s.workers.set w .gone) + 1 = alive s.workers := by rw [h2, h1, alive_split, alive_split]; rfl
      have hst := I.steps
      refine ⟨I.next_le, I.closed, I.calls, by dsimp only; rw [hb]; exact I.work, I.errs, fun _ => hc.1, by rw [List.length_set]; exact I.len, ?_, ?_⟩
      · intro r hr
        have := (I.result r hr).2.1 .idle (by rw [h1]; simp)
        cases this
      · dsimp only
        rw [hb]
        omega
    · cases h
  | ret =>
    simp only [exec] at h
    split at h
    · rename_i hc
      simp only [Option.some.injEq] at h
      subst h
      have hst := I.steps
      refine ⟨I.next_le, I.closed, I.calls, I.work, I.errs, I.gone, I.len, ?_, ?_⟩
      · intro r hr
        simp only [Option.some.injEq] at hr
        exact ⟨hc.1, hc.2.2, hr.symm⟩
      · dsimp only
        rw [hc.2.1, if_pos rfl] at hst
        generalize (if s.closed = true then 0 else 1) = x at hst ⊢
        simp only [reduceCtorEq, if_false]
        omega
    · cases h

theorem inv_run {n : Nat} {workers : Int} {s t : Farm ε} {k : Nat} (h0 : start ε n workers = some s) (h : Run n s k t) : Inv n (min workers.toNat n) k t := by
  induction h with
  | refl => exact inv_start h0
  | step e _ he ih => exact inv_step ih he

theorem progress {n W k : Nat} {s : Farm ε} (I : Inv n W k s) (hW : 0 < W) (hr : s.result = none) : ∃ e t, exec n s e = some t := by
  by_cases hbusy : ∃ (w p : Nat), s.workers[w]? = some (Worker.busy p)
  · obtain ⟨w, p, hw⟩ := hbusy
    exact ⟨.finish w none, _, by simp only [exec, hw]; rfl⟩
  by_cases hn : s.next < n
  · have h0 : 0 < s.workers.length := by rw [I.len]; exact hW
    have hget : s.workers[0]? = some s.workers[0] := List.getElem?_eq_getElem h0
    cases hx : s.workers[0] with
    | idle => rw [hx] at hget; exact ⟨.send 0, _, by simp only [exec, if_pos (And.intro hn hget)]; rfl⟩
    | busy p => rw [hx] at hget; exact absurd ⟨0, p, hget⟩ hbusy
    | gone =>
      have := I.closed (I.gone (by rw [← hx]; exact List.getElem_mem h0))
      omega
  have hn' : s.next = n := by have := I.next_le; omega
  cases hcl : s.closed with
  | false => exact ⟨.close, _, by simp only [exec, if_pos (And.intro hn' hcl)]; rfl⟩
  | true =>
    by_cases hi : ∃ w : Nat, s.workers[w]? = some Worker.idle
    · obtain ⟨w, hw⟩ := hi
      exact ⟨.exit w, _, by simp only [exec, if_pos (And.intro hcl hw)]; rfl⟩
    · have hall : ∀ x ∈ s.workers, x = Worker.gone := by
        intro x hx
        obtain ⟨w, hw⟩ := List.mem_iff_getElem?.1 hx
        cases x with
        | idle => exact absurd ⟨w, hw⟩ hi
        | busy p => exact absurd ⟨w, p, hw⟩ hbusy
        | gone => rfl
      exact ⟨.ret, _, by simp only [exec, if_pos (And.intro hcl (And.intro hr hall))]; rfl⟩

end Fpki.Bench
