import Verif.Model.Stage
import Verif.Props.Util
import Mathlib.Data.List.Perm.Subperm

/-!
# Lemmas about removing the same positions from two slices
-/
namespace Fpki.Stage
open Fpki.Util

theorem removeLoop_map (f : α → β) (idx : List Nat) (newLen : Int) : ∀ (fuel : Nat) (i j t : Int) (l : List α),
    removeLoop idx newLen fuel i j t (l.map f) = (removeLoop idx newLen fuel i j t l).map (List.map f)
  | 0, _, _, _, _ => rfl
  | fuel + 1, i, j, t, l => by
    unfold removeLoop
    by_cases h : i ≤ j ∧ i < newLen
    · rw [if_pos h, if_pos h]
      cases h1 : findStay idx i (idx.length + 1) j t with
      | none => rfl
      | some p =>
        obtain ⟨j', t'⟩ := p
        dsimp only
        cases h2 : idx[i.toNat]? with
        | none => rfl
        | some d =>
          dsimp only
          by_cases h3 : 0 ≤ t'
          · rw [if_pos h3, if_pos h3, List.getElem?_map]
            cases h4 : l[t'.toNat]? with
            | none => rfl
            | some x =>
              simp only [Option.map_some, List.length_map]
              by_cases h5 : d < l.length
              · rw [if_pos h5, if_pos h5, ← List.map_set]
                exact removeLoop_map f idx newLen fuel _ _ _ _
              · rw [if_neg h5, if_neg h5]; rfl
          · rw [if_neg h3, if_neg h3]; rfl
    · rw [if_neg h, if_neg h]; rfl

theorem qsort_rnd (rnd rnd' : Nat → Nat) (idx : List Nat) :
    qsort (fun a b : Nat => decide (a < b)) rnd idx = qsort (fun a b => decide (a < b)) rnd' idx := by
  obtain ⟨r, e, p, s⟩ := C55_qsort_sorts _ strictWeak_nat rnd idx
  obtain ⟨r', e', p', s'⟩ := C55_qsort_sorts _ strictWeak_nat rnd' idx
  rw [e, e']
  congr 1
  have t : ∀ {l : List Nat}, l.Pairwise (fun x y => decide (y < x) = false) → l.Pairwise (· ≤ ·) :=
    fun h => h.imp (fun h => by simpa using h)
  exact (p.trans p'.symm).eq_of_pairwise (fun a b _ _ h1 h2 => Nat.le_antisymm h1 h2) (t s) (t s')

/-- Removing positions commutes with mapping and does not depend on the random numbers. -/
theorem removeElements_map (rnd rnd' : Nat → Nat) (f : α → β) (l : List α) (idx : List Nat) :
    removeElements rnd (l.map f) idx = (removeElements rnd' l idx).map (List.map f) := by
  unfold removeElements
  rw [List.length_map]
  by_cases h : idx.length ≥ l.length
  · rw [if_pos h, if_pos h]; rfl
  · rw [if_neg h, if_neg h, qsort_rnd rnd rnd']
    obtain ⟨r, e, p, s⟩ := C55_qsort_sorts _ strictWeak_nat rnd' idx
    rw [e]
    simp only [Option.bind_eq_bind, Option.bind_some]
    rw [removeLoop_map]
    cases removeLoop r ((l.length : Int) - r.length) (r.length + 1) 0 ((r.length : Int) - 1)
        ((l.length : Int) - 0 - r.length + ((r.length : Int) - 1)) l with
    | none => rfl
    | some x => simp [List.map_take]

theorem pairs_fst {outs : List ω} {chs : List Nat} (h : outs.length = chs.length) : (pairs outs chs).map Prod.snd = outs := by
  unfold pairs; exact List.map_snd_zip (by omega)

theorem pairs_snd {outs : List ω} {chs : List Nat} (h : outs.length = chs.length) : (pairs outs chs).map Prod.fst = chs := by
  unfold pairs; exact List.map_fst_zip (by omega)

/-- Removing the same positions from the values and from the channels keeps them paired, and the pairs left are
the pairs at the other positions. -/
theorem remove_pairs {rnd1 rnd2 : Nat → Nat} {outs outs' : List ω} {chs chs' done : List Nat}
    (h : outs.length = chs.length) (hn : done.Nodup) (hb : ∀ x ∈ done, x < outs.length)
    (ho : removeElements rnd1 outs done = some outs') (hc : removeElements rnd2 chs done = some chs') :
    outs'.length = chs'.length ∧ (pairs outs' chs').Perm (keepOthers (pairs outs chs) done) := by
  have hl : (pairs outs chs).length = outs.length := by unfold pairs; simp; omega
  obtain ⟨r, e, p⟩ := C64_remove_elements rnd1 (pairs outs chs) done hn (by rw [hl]; exact hb)
  have e1 := removeElements_map rnd1 rnd1 Prod.snd (pairs outs chs) done
  have e2 := removeElements_map rnd2 rnd1 Prod.fst (pairs outs chs) done
  rw [pairs_fst h, ho, e] at e1
  rw [pairs_snd h, hc, e] at e2
  have e1 : outs' = r.map Prod.snd := by simpa using e1
  have e2 : chs' = r.map Prod.fst := by simpa using e2
  subst e1 e2
  refine ⟨by simp, ?_⟩
  have : pairs (r.map Prod.snd) (r.map Prod.fst) = r := by
    unfold pairs
    clear e p ho hc e1 e2
    induction r with
    | nil => rfl
    | cons x xs ih => simp [ih]
  rw [this]; exact p

theorem keepOthers_nil (l : List α) : keepOthers l [] = l := by
  unfold keepOthers
  have : (List.range l.length).filter (fun p => decide (p ∉ [])) = List.range l.length := by
    rw [List.filter_eq_self]; simp
  rw [this]
  clear this
  apply List.ext_getElem?
  intro i
  induction l generalizing i with
  | nil => simp
  | cons x xs ih =>
    rw [List.length_cons, List.range_succ_eq_map, List.filterMap_cons]
    simp only [List.getElem?_cons_zero, List.filterMap_map]
    have e : ((fun p => (x :: xs)[p]?) ∘ Nat.succ) = fun p => xs[p]? := by funext p; simp
    rw [e]
    cases i with
    | zero => rfl
    | succ i => rw [List.getElem?_cons_succ, List.getElem?_cons_succ]; exact ih i

/-- Taking one more position out. -/
theorem keepOthers_concat {l : List α} {idx : List Nat} {i : Nat} {x : α} (hx : l[i]? = some x) (hi : i ∉ idx) :
    (x :: keepOthers l (idx ++ [i])).Perm (keepOthers l idx) := by
  unfold keepOthers
  have hil : i < l.length := (List.getElem?_eq_some_iff.1 hx).1
  have h1 : ((List.range l.length).filter (fun p => decide (p ∉ idx))).Perm
      (i :: (List.range l.length).filter (fun p => decide (p ∉ idx ++ [i]))) := by
    refine (List.perm_ext_iff_of_nodup (List.nodup_range.filter _) ?_).2 ?_
    · rw [List.nodup_cons]
      exact ⟨by simp, List.nodup_range.filter _⟩
    · intro a
      simp only [List.mem_filter, List.mem_range, List.mem_cons, decide_eq_true_eq, List.mem_append, not_or,
        List.not_mem_nil, or_false, not_false_eq_true]
      constructor
      · rintro ⟨h1, h2⟩
        by_cases h : a = i
        · exact .inl h
        · exact .inr ⟨h1, h2, by simpa using h⟩
      · rintro (rfl | ⟨h1, h2, _⟩)
        · exact ⟨hil, hi⟩
        · exact ⟨h1, h2⟩
  have h2 := h1.filterMap (fun p => l[p]?)
  rw [List.filterMap_cons, hx] at h2
  exact h2.symm

theorem removeElements_all {rnd : Nat → Nat} {l : List α} {idx : List Nat} (h : l.length ≤ idx.length) :
    removeElements rnd l idx = some [] := by
  unfold removeElements
  rw [if_pos h]

theorem removeElements_none (rnd : Nat → Nat) (l : List α) : removeElements rnd l [] = some l := by
  by_cases h : l = []
  · subst h; exact removeElements_all (Nat.le_refl _)
  · unfold removeElements
    have : ¬(([] : List Nat).length ≥ l.length) := by
      cases l with
      | nil => exact absurd rfl h
      | cons x xs => simp
    rw [if_neg this]
    obtain ⟨r, e, p, s⟩ := C55_qsort_sorts _ strictWeak_nat rnd []
    rw [e]
    have : r = [] := List.Perm.eq_nil p
    subst this
    simp [removeLoop]

end Fpki.Stage
