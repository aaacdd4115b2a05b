import Verif.Model.Util
import Verif.Lemmas.Ingest
import Mathlib.Data.List.Perm.Subperm

namespace Fpki.Util
open Fpki.Ingest (Str isDig digitsVal showNat)

/-! ## errors -/

mutual
/-- The messages of the errors contained in an error, in order (specification). -/
def Err.leaves : Err → List Str
  | .nil => []
  | .plain m => [m]
  | .coalesced es => leavesAll es
def leavesAll : List Err → List Str
  | [] => []
  | e :: es => e.leaves ++ leavesAll es
end

/-- First occurrences, in order (specification). -/
def firsts (acc : List Str) : List Str → List Str
  | [] => acc
  | m :: ms => firsts (if m ∈ acc then acc else acc ++ [m]) ms

theorem firsts_append (acc a b : List Str) : firsts acc (a ++ b) = firsts (firsts acc a) b := by
  induction a generalizing acc with
  | nil => rfl
  | cons x xs ih => simp only [List.cons_append, firsts, ih]

mutual
theorem addError_eq (acc : List Str) (e : Err) : addError acc e = firsts acc e.leaves := by
  cases e with
  | nil => simp [addError, Err.leaves, firsts]
  | plain m => simp [addError, Err.leaves, firsts]
  | coalesced es => simp only [addError, Err.leaves]; exact addErrors_eq acc es
theorem addErrors_eq (acc : List Str) (es : List Err) : addErrors acc es = firsts acc (leavesAll es) := by
  cases es with
  | nil => simp [addErrors, leavesAll, firsts]
  | cons e es =>
    simp only [addErrors, leavesAll, firsts_append]
    rw [addError_eq acc e, addErrors_eq _ es]
end

theorem firsts_spec (acc ms : List Str) (h : acc.Nodup) :
    (firsts acc ms).Nodup ∧ (∀ m, m ∈ firsts acc ms ↔ m ∈ acc ∨ m ∈ ms) ∧ acc <+: firsts acc ms := by
  induction ms generalizing acc with
  | nil => exact ⟨h, by simp [firsts], List.prefix_refl _⟩
  | cons x xs ih =>
    simp only [firsts]
    by_cases hx : x ∈ acc
    · rw [if_pos hx]
      obtain ⟨h1, h2, h3⟩ := ih acc h
      refine ⟨h1, fun m => ?_, h3⟩
      rw [h2, List.mem_cons]
      constructor
      · rintro (h | h) <;> simp [h]
      · rintro (h | h | h)
        · exact .inl h
        · exact .inl (h ▸ hx)
        · exact .inr h
    · rw [if_neg hx]
      obtain ⟨h1, h2, h3⟩ := ih (acc ++ [x]) (by
        rw [List.nodup_append]
        exact ⟨h, by simp, by rintro a ha b hb rfl; simp at hb; exact hx (hb ▸ ha)⟩)
      refine ⟨h1, fun m => ?_, (List.prefix_append _ _).trans h3⟩
      rw [h2, List.mem_append, List.mem_singleton, List.mem_cons]
      exact or_assoc

theorem firsts_nil {ms : List Str} (h : firsts [] ms = []) : ms = [] := by
  cases ms with
  | nil => rfl
  | cons x xs =>
    have := ((firsts_spec [] (x :: xs) (by simp)).2.1 x).2 (by simp)
    rw [h] at this; simp at this

/-- Messages already among `acc` are skipped. -/
theorem firsts_id {acc ms : List Str} (h : ∀ m ∈ ms, m ∈ acc) : firsts acc ms = acc := by
  induction ms with
  | nil => rfl
  | cons x xs ih =>
    simp only [firsts]
    rw [if_pos (h x (by simp)), ih (fun m hm => h m (by simp [hm]))]

theorem firsts_nodup {acc ms : List Str} (h : (acc ++ ms).Nodup) : firsts acc ms = acc ++ ms := by
  induction ms generalizing acc with
  | nil => simp [firsts]
  | cons x xs ih =>
    simp only [firsts]
    have : x ∉ acc := fun hx => (List.nodup_append.1 h).2.2 x hx x (by simp) rfl
    rw [if_neg this, ih (by simpa using h)]; simp

theorem leavesAll_plain (ms : List Str) : leavesAll (ms.map .plain) = ms := by
  induction ms with
  | nil => rfl
  | cons x xs ih => simp [leavesAll, Err.leaves, ih]

theorem leavesAll_append (a b : List Err) : leavesAll (a ++ b) = leavesAll a ++ leavesAll b := by
  induction a with
  | nil => rfl
  | cons x xs ih => simp [leavesAll, ih]

/-! ## swap -/

theorem swap_eq {a : List α} {i j : Nat} (hi : i < a.length) (hj : j < a.length) :
    swap a i j = some ((a.set i a[j]).set j a[i]) := by
  simp [swap, hi, hj]

theorem swap_spec {a : List α} {i j : Nat} (hi : i < a.length) (hj : j < a.length) :
    ∃ b, swap a i j = some b ∧ b.Perm a ∧ b.length = a.length ∧
      b[i]? = a[j]? ∧ b[j]? = a[i]? ∧ ∀ x, x ≠ i → x ≠ j → b[x]? = a[x]? := by
  refine ⟨_, swap_eq hi hj, ?_, by simp, ?_, ?_, ?_⟩
  · have := Array.swap_perm (xs := a.toArray) (i := i) (j := j) (by simpa using hi) (by simpa using hj)
    have h2 := this.toList
    simpa [Array.swap] using h2
  · by_cases e : j = i
    · subst e; simp [hj]
    · rw [List.getElem?_set_ne e]; simp [hi, hj]
  · simp [hi, hj]
  · intro x h1 h2
    rw [List.getElem?_set_ne (Ne.symm h2), List.getElem?_set_ne (Ne.symm h1)]

/-! ## Qsort -/

/-- A strict weak order, as `<` on Go's ordered types without NaN. -/
structure StrictWeak (lt : α → α → Bool) : Prop where
  irrefl : ∀ a, lt a a = false
  trans : ∀ a b c, lt a b = true → lt b c = true → lt a c = true
  negTrans : ∀ a b c, lt a b = false → lt b c = false → lt a c = false

/-- Invariant of the partition loop. -/
structure PileInv (lt : α → α → Bool) (p : α) (a0 : List α) (right i left : Nat) (a : List α) : Prop where
  perm : a.Perm a0
  len : a.length = a0.length
  pivot : a[right]? = some p
  left_le : left ≤ i
  smaller : ∀ x, x < left → ∀ y, a[x]? = some y → lt y p = true
  larger : ∀ x, left ≤ x → x < i → ∀ y, a[x]? = some y → lt y p = false

theorem pile_spec (lt : α → α → Bool) (hirr : ∀ a, lt a a = false) (p : α) (a0 : List α) (right : Nat)
    (hr : right + 1 = a0.length) :
    ∀ n i left a, n + i = a0.length → PileInv lt p a0 right i left a →
      ∃ left' a', pile lt right n i left a = some (left', a') ∧
        PileInv lt p a0 right a0.length left' a' ∧ left' ≤ right := by
  intro n
  induction n with
  | zero =>
    intro i left a hn inv
    have hi : i = a0.length := by omega
    subst hi
    refine ⟨left, a, rfl, inv, ?_⟩
    by_cases h : left ≤ right
    · exact h
    · have := inv.smaller right (by omega) p inv.pivot
      rw [hirr] at this; cases this
  | succ n ih =>
    intro i left a hn inv
    have hi : i < a.length := by rw [inv.len]; omega
    have hleft : left < a.length := by have := inv.left_le; omega
    rw [pile, List.getElem?_eq_getElem hi, inv.pivot]
    dsimp only
    by_cases hlt : lt a[i] p = true
    · rw [if_pos hlt]
      obtain ⟨b, hb, h1, h2, h3, h4, h5⟩ := swap_spec hi hleft
      rw [hb]
      dsimp only
      have hir : i ≠ right := by
        rintro rfl
        have := inv.pivot
        rw [List.getElem?_eq_getElem hi] at this
        rw [Option.some.inj this, hirr] at hlt; cases hlt
      apply ih (i + 1) (left + 1) b (by omega)
      refine ⟨h1.trans inv.perm, h2.trans inv.len, ?_, by have := inv.left_le; omega, ?_, ?_⟩
      · have hlr : left ≠ right := by have := inv.left_le; omega
        rw [h5 right (Ne.symm hir) (Ne.symm hlr)]; exact inv.pivot
      · intro x hx y hy
        by_cases e : x = left
        · rw [e, h4, List.getElem?_eq_getElem hi] at hy
          rw [← Option.some.inj hy]; exact hlt
        · have := inv.left_le
          rw [h5 x (by omega) e] at hy
          exact inv.smaller x (by omega) y hy
      · intro x hx1 hx2 y hy
        by_cases e : x = i
        · subst e
          rw [h3] at hy
          exact inv.larger left (Nat.le_refl _) (by omega) y hy
        · rw [h5 x e (by omega)] at hy
          exact inv.larger x (by omega) (by omega) y hy
    · rw [if_neg hlt]
      apply ih (i + 1) left a (by omega)
      refine ⟨inv.perm, inv.len, inv.pivot, by have := inv.left_le; omega, inv.smaller, ?_⟩
      intro x hx1 hx2 y hy
      by_cases e : x = i
      · subst e
        rw [List.getElem?_eq_getElem hi] at hy
        rw [← Option.some.inj hy]; simpa using hlt
      · exact inv.larger x hx1 (by omega) y hy

theorem qsortAux_spec (lt : α → α → Bool) (h : StrictWeak lt) (rnd : Nat → Nat) :
    ∀ fuel k (a : List α), a.length < fuel →
      ∃ r k', qsortAux lt rnd fuel k a = some (r, k') ∧ r.Perm a ∧
        r.Pairwise (fun x y => lt y x = false) := by
  intro fuel
  induction fuel with
  | zero => intro k a ha; omega
  | succ fuel ih =>
    intro k a ha
    rw [qsortAux]
    by_cases hlen : a.length < 2
    · rw [if_pos hlen]
      refine ⟨a, k, rfl, List.Perm.refl _, ?_⟩
      match a, hlen with
      | [], _ => exact .nil
      | [x], _ => simp
    · rw [if_neg hlen]
      have hright : a.length - 1 < a.length := by omega
      obtain ⟨a1, e1, p1, l1, _, hpiv, _⟩ := swap_spec (a := a) (i := rnd k % a.length)
        (j := a.length - 1) (Nat.mod_lt _ (by omega)) hright
      have hm : rnd k % a.length < a.length := Nat.mod_lt _ (by omega)
      rw [List.getElem?_eq_getElem hm] at hpiv
      obtain ⟨left, a2, e2, inv, hleft⟩ := pile_spec lt h.irrefl a[rnd k % a.length] a1 (a.length - 1)
        (by omega) a1.length 0 0 a1 (by omega)
        ⟨List.Perm.refl _, rfl, hpiv, Nat.le_refl _, by intro x hx; omega, by intro x _ hx; omega⟩
      have l2 : a2.length = a.length := by rw [inv.len, l1]
      obtain ⟨a3, e3, p3, l3, h3l, h3r, h3o⟩ := swap_spec (a := a2) (i := left) (j := a.length - 1)
        (by omega) (by omega)
      have l3' : a3.length = a.length := by omega
      obtain ⟨l, k1, el, pl, sl⟩ := ih (k + 1) (a3.take left) (by simp; omega)
      obtain ⟨r, k2, er, pr, sr⟩ := ih k1 (a3.drop (left + 1)) (by simp; omega)
      have hl3 : left < a3.length := by omega
      refine ⟨l ++ a3[left] :: r, k2, ?_, ?_, ?_⟩
      · simp [e1, e2, e3, el, er, List.getElem?_eq_getElem hl3]
      · have : a3 = a3.take left ++ a3[left] :: a3.drop (left + 1) := by simp
        have hp : (l ++ a3[left] :: r).Perm a3 := by
          conv => rhs; rw [this]
          exact pl.append (pr.cons _)
        exact hp.trans (p3.trans (inv.perm.trans p1))
      · have hpv : a3[left] = a[rnd k % a.length] := by
          have := inv.pivot
          rw [← h3l, List.getElem?_eq_getElem hl3] at this
          exact Option.some.inj this
        have hsm : ∀ y ∈ l, lt y a3[left] = true := by
          intro y hy
          rw [hpv]
          obtain ⟨x, hx, rfl⟩ := List.mem_iff_getElem.1 (pl.subset hy)
          simp only [List.length_take] at hx
          refine inv.smaller x (by omega) _ ?_
          rw [← h3o x (by omega) (by omega)]
          simp [List.getElem?_eq_getElem (show x < a3.length by omega)]
        have hlg : ∀ y ∈ r, lt y a3[left] = false := by
          intro y hy
          rw [hpv]
          obtain ⟨x, hx, rfl⟩ := List.mem_iff_getElem.1 (pr.subset hy)
          simp only [List.length_drop] at hx
          rw [List.getElem_drop]
          by_cases e : left + 1 + x = a.length - 1
          · refine inv.larger left (Nat.le_refl _) (by omega) _ ?_
            rw [← h3r, ← e, List.getElem?_eq_getElem (by omega)]
          · refine inv.larger (left + 1 + x) (by omega) (by omega) _ ?_
            rw [← h3o _ (by omega) e, List.getElem?_eq_getElem (by omega)]
        rw [List.pairwise_append]
        refine ⟨sl, List.pairwise_cons.2 ⟨fun y hy => hlg y hy, sr⟩, ?_⟩
        intro y hy z hz
        have hy' := hsm y hy
        have hasym : lt a3[left] y = false := by
          cases hh : lt a3[left] y with
          | false => rfl
          | true => have := h.trans _ _ _ hy' hh; rw [h.irrefl] at this; cases this
        rcases List.mem_cons.1 hz with rfl | hz
        · exact hasym
        · exact h.negTrans _ _ _ (hlg z hz) hasym

/-! ## math -/

theorem pow_eq (x : BitVec w) (n : Nat) : pow x n = x ^ n := by
  fun_induction pow x n with
  | case1 => simp
  | case2 => simp
  | case3 n h0 h1 y he ih =>
    have : n = n / 2 + n / 2 := by omega
    conv => rhs; rw [this, BitVec.pow_add]
    rw [← ih]
  | case4 n h0 h1 y he ih =>
    have : n = n / 2 + n / 2 + 1 := by omega
    conv => rhs; rw [this, BitVec.pow_succ, BitVec.pow_add]
    rw [← ih]
    show x * y * y = y * y * x
    rw [BitVec.mul_assoc, BitVec.mul_comm]

theorem bitLen_spec (n : Nat) : n < 2 ^ bitLen n ∧ ∀ k, n < 2 ^ k → bitLen n ≤ k := by
  fun_induction bitLen n with
  | case1 => simp
  | case2 n h ih =>
    simp only [Nat.shiftRight_succ, Nat.shiftRight_zero] at *
    constructor
    · have := ih.1; rw [Nat.pow_succ]; omega
    · intro k hk
      cases k with
      | zero => simp at hk; omega
      | succ k =>
        have := ih.2 k (by rw [Nat.pow_succ] at hk; omega)
        omega

/-! ## Removing an element by moving the last one -/

theorem moveLast_perm (l : List α) (i : Nat) (x : α) (hi : i < l.length) (hx : l[l.length - 1]? = some x) :
    ((l.set i x).take (l.length - 1)).Perm (l.eraseIdx i) := by
  rw [List.take_set]
  by_cases e : i = l.length - 1
  · subst e
    rw [List.set_eq_of_length_le (by simp), List.eraseIdx_eq_take_drop_succ]
    rw [List.drop_eq_nil_of_le (by omega), List.append_nil]
  · have hlen : 0 < l.length := by omega
    have h1 : l = l.take (l.length - 1) ++ [x] := by
      have := List.getElem?_eq_some_iff.1 hx
      obtain ⟨h, e⟩ := this
      conv => lhs; rw [← List.take_append_drop (l.length - 1) l]
      rw [List.drop_eq_getElem_cons (by omega), e, List.drop_eq_nil_of_le (by omega)]
    generalize hq : l.take (l.length - 1) = q at *
    have hql : q.length = l.length - 1 := by rw [← hq]; simp
    rw [h1, List.eraseIdx_append_of_lt_length (by omega)]
    rw [List.set_eq_take_append_cons_drop, if_pos (by omega), List.eraseIdx_eq_take_drop_succ, List.append_assoc]
    exact List.Perm.append_left _ (List.perm_append_singleton _ _).symm

/-! ## Deduplication -/

structure UniqInv [DecidableEq κ] (m0 : List κ) (s0 : List (List β)) (i : Nat) (seen m : List κ)
    (ss : List (List β)) (pos : List Nat) : Prop where
  nodup : pos.Nodup
  bound : ∀ p ∈ pos, p < m0.length
  master : m.map some = pos.map (fun p => m0[p]?)
  slaves : List.Forall₂ (fun s s' => m.length ≤ s'.length ∧
    (s'.take m.length).map some = pos.map (fun p => s[p]?)) s0 ss
  le : i ≤ m.length
  keys : (m.take i).Nodup
  seen_iff : ∀ e, e ∈ seen ↔ e ∈ m.take i
  all : ∀ e, e ∈ m ↔ e ∈ m0

theorem copyElems_spec (i last : Nat) (hi : i ≤ last) (n : Nat) (hn : n = last + 1)
    (pos pos' : List Nat) (hlen : pos.length = n) (q : Nat) (hq : pos[last]? = some q)
    (hpos' : pos' = (pos.set i q).take last) :
    ∀ (s0 ss : List (List β)), List.Forall₂ (fun s s' => n ≤ s'.length ∧
      (s'.take n).map some = pos.map (fun p => s[p]?)) s0 ss →
    ∃ ss', copyElems i last ss = some ss' ∧ List.Forall₂ (fun s s' => last ≤ s'.length ∧
      (s'.take last).map some = pos'.map (fun p => s[p]?)) s0 ss' := by
  intro s0 ss h
  induction h with
  | nil => exact ⟨[], rfl, .nil⟩
  | @cons s s' s0 ss hh _ ih =>
    obtain ⟨ss', e1, e2⟩ := ih
    obtain ⟨h1, h2⟩ := hh
    have hl : last < s'.length := by omega
    refine ⟨s'.set i s'[last] :: ss', ?_, .cons ⟨by simp; omega, ?_⟩ e2⟩
    · simp [copyElems, List.getElem?_eq_getElem hl, e1]
    · have hx : some s'[last] = s[q]? := by
        have := congrArg (·[last]?) h2
        simp only [List.getElem?_map, hq, Option.map_some] at this
        rw [List.getElem?_take_of_lt (by omega), List.getElem?_eq_getElem hl] at this
        simpa using this
      rw [hpos']
      conv => rhs; rw [List.map_take, List.map_set, ← hx, ← h2, ← List.map_set, ← List.map_take]
      congr 1
      rw [← List.take_set, List.take_take]
      congr 1; omega

theorem uniqLoop_spec [DecidableEq κ] (m0 : List κ) (s0 : List (List β)) :
    ∀ fuel i seen m ss pos, m.length - i < fuel → UniqInv m0 s0 i seen m ss pos →
    ∃ m' ss' pos', uniqLoop fuel i seen m ss = some (m', ss') ∧
      ∃ seen', UniqInv m0 s0 m'.length seen' m' ss' pos' := by
  intro fuel
  induction fuel with
  | zero => intro i seen m ss pos h; omega
  | succ fuel ih =>
    intro i seen m ss pos hf inv
    rw [uniqLoop]
    by_cases hi : i < m.length
    · rw [if_pos hi, List.getElem?_eq_getElem hi]
      dsimp only
      by_cases hs : m[i] ∈ seen
      · rw [if_neg (by simpa using hs)]
        have hlast : m.length - 1 < m.length := by omega
        have hpl : pos.length = m.length := by
          have := congrArg List.length inv.master; simpa using this.symm
        obtain ⟨q, hq⟩ : ∃ q, pos[m.length - 1]? = some q := ⟨_, List.getElem?_eq_getElem (by omega)⟩
        obtain ⟨ss', e1, e2⟩ := copyElems_spec i (m.length - 1) (by omega) m.length (by omega) pos _ hpl _ hq
          rfl s0 ss inv.slaves
        rw [List.getElem?_eq_getElem hlast, e1]
        dsimp only
        have hml : ((m.set i m[m.length - 1]).take (m.length - 1)).length = m.length - 1 := by simp
        have hperm := moveLast_perm m i _ hi (List.getElem?_eq_getElem hlast)
        have hmi : m[i] ∈ m.take i := (inv.seen_iff _).1 hs
        have htake : ((m.set i m[m.length - 1]).take (m.length - 1)).take i = m.take i := by
          rw [List.take_take, List.take_set_of_le (by omega)]
          congr 1; omega
        refine ih i seen _ ss' ((pos.set i q).take (m.length - 1))
          (by rw [hml]; omega) ⟨?_, ?_, ?_, ?_, by rw [hml]; omega, ?_, ?_, ?_⟩
        · have := moveLast_perm pos i _ (by omega) (by rw [hpl]; exact hq)
          rw [hpl] at this
          exact this.nodup_iff.2 (inv.nodup.sublist (List.eraseIdx_sublist ..))
        · intro p hp
          have := moveLast_perm pos i _ (by omega) (by rw [hpl]; exact hq)
          rw [hpl] at this
          exact inv.bound p ((List.eraseIdx_sublist ..).subset (this.subset hp))
        · have hx : some m[m.length - 1] = m0[q]? := by
            have := congrArg (·[m.length - 1]?) inv.master
            simp only [List.getElem?_map, hq, List.getElem?_eq_getElem hlast, Option.map_some] at this
            simpa using this
          rw [List.map_take, List.map_set, inv.master, List.map_take, List.map_set, hx]
        · rw [hml]; exact e2
        · rw [htake]; exact inv.keys
        · rw [htake]; exact inv.seen_iff
        · intro e
          rw [hperm.mem_iff, ← inv.all]
          constructor
          · exact fun h => (List.eraseIdx_sublist ..).subset h
          · intro h
            rw [List.eraseIdx_eq_take_drop_succ, List.mem_append]
            rw [← List.take_append_drop i m, List.drop_eq_getElem_cons hi] at h
            rcases List.mem_append.1 h with h | h
            · exact .inl h
            · rcases List.mem_cons.1 h with h | h
              · exact .inl (h ▸ hmi)
              · exact .inr h
      · rw [if_pos (by simpa using hs)]
        have ht : m.take (i + 1) = m.take i ++ [m[i]] := by rw [List.take_succ_eq_append_getElem hi]
        refine ih (i + 1) _ m ss pos (by omega) ⟨inv.nodup, inv.bound, inv.master, inv.slaves, hi, ?_, ?_, inv.all⟩
        · rw [ht, List.nodup_append]
          refine ⟨inv.keys, by simp, ?_⟩
          rintro a ha b hb rfl
          simp only [List.mem_singleton] at hb
          exact hs ((inv.seen_iff _).2 (hb ▸ ha))
        · intro e
          rw [ht, List.mem_append, List.mem_cons, inv.seen_iff, List.mem_singleton]
          exact or_comm
    · rw [if_neg hi]
      have e : i = m.length := by have := inv.le; omega
      subst e
      exact ⟨m, ss, pos, rfl, seen, inv⟩

end Fpki.Util
