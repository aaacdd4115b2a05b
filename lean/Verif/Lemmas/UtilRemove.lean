import Verif.Lemmas.Util

namespace Fpki.Util

/-- The elements of `l` at the positions not in `idx`, in order (specification). -/
def keepOthers (l : List α) (idx : List Nat) : List α :=
  ((List.range l.length).filter (fun p => decide (p ∉ idx))).filterMap (fun p => l[p]?)

theorem compl_length (L : Nat) (idx : List Nat) (hn : idx.Nodup) (hb : ∀ x ∈ idx, x < L) :
    ((List.range L).filter (fun p => decide (p ∉ idx))).length + idx.length = L := by
  have h : (((List.range L).filter (fun p => decide (p ∉ idx))) ++ idx).Perm (List.range L) := by
    refine (List.perm_ext_iff_of_nodup ?_ List.nodup_range).2 ?_
    · rw [List.nodup_append]
      refine ⟨List.nodup_range.filter _, hn, ?_⟩
      rintro a ha b hb rfl
      simp only [List.mem_filter, decide_eq_true_eq] at ha
      exact ha.2 hb
    · intro a
      simp only [List.mem_append, List.mem_filter, List.mem_range, decide_eq_true_eq]
      constructor
      · rintro (h | h)
        · exact h.1
        · exact hb a h
      · intro h
        by_cases e : a ∈ idx
        · exact .inr e
        · exact .inl ⟨h, e⟩
  have := h.length_eq
  simpa using this

/-- Sorted without repetition: the `u`-th element is at least `u`. -/
theorem sorted_ge {idx : List Nat} (h : idx.Pairwise (· < ·)) : ∀ u (hu : u < idx.length), u ≤ idx[u] := by
  intro u
  induction u with
  | zero => intro _; omega
  | succ u ih =>
    intro hu
    have h1 := ih (by omega)
    have h2 := List.pairwise_iff_getElem.1 h u (u + 1) (by omega) hu (by omega)
    omega

theorem findStay_spec (idx : List Nat) (h : idx.Pairwise (· < ·)) (i : Int) (hi : 0 ≤ i) :
    ∀ (fuel : Nat) (j t : Int), j + 1 - i < fuel → i - 1 ≤ j → j < idx.length →
      (∀ x (hx : x < idx.length), j < x → t < idx[x]) →
      ∃ j' t', findStay idx i fuel j t = some (j', t') ∧ i - 1 ≤ j' ∧ j' < idx.length ∧ t' - j' = t - j ∧
        t' ≤ t ∧ (∀ x (hx : x < idx.length), j' < x → t' < idx[x]) ∧
        (i ≤ j' → ∀ x (hx : x < idx.length), x ≤ j' → (idx[x] : Int) < t') := by
  intro fuel
  induction fuel with
  | zero => intro j t h1 h2; omega
  | succ fuel ih =>
    intro j t h1 h2 h3 h4
    rw [findStay]
    by_cases hj : j ≥ i
    · rw [if_pos hj]
      have hjl : j.toNat < idx.length := by omega
      rw [List.getElem?_eq_getElem hjl]
      dsimp only
      by_cases hs : (idx[j.toNat] : Int) < t
      · rw [if_pos hs]
        refine ⟨j, t, rfl, h2, h3, by omega, by omega, h4, ?_⟩
        intro _ x hx hxj
        by_cases e : x = j.toNat
        · subst e; exact hs
        · have := List.pairwise_iff_getElem.1 h x j.toNat hx hjl (by omega)
          omega
      · rw [if_neg hs]
        obtain ⟨j', t', e1, e2, e3, e4, e5, e6, e7⟩ := ih (j - 1) (t - 1) (by omega) (by omega) (by omega)
          (by
            intro x hx hxj
            by_cases e : x = j.toNat
            · subst e; omega
            · have := h4 x hx (by omega); omega)
        exact ⟨j', t', e1, e2, e3, by omega, by omega, e6, e7⟩
    · rw [if_neg hj]
      exact ⟨j, t, rfl, h2, h3, rfl, Int.le_refl _, h4, by intro h; omega⟩

structure RemInv (l : List α) (idx : List Nat) (M : Nat) (i j t : Int) (cur : List α) : Prop where
  i0 : 0 ≤ i
  ik : i ≤ idx.length
  len : cur.length = l.length
  tail : ∀ x (hx : x < idx.length), j < x → t < idx[x]
  state : (i - 1 ≤ j ∧ t = M + j - i ∧ j < idx.length) ∨
    (j < i ∧ ∀ x (hx : x < idx.length), i ≤ x → M ≤ idx[x])
  same : ∀ x, x ∉ idx.take i.toNat → cur[x]? = l[x]?
  moved : ∃ g : Nat → Nat, (∀ x, x < M → x ∈ idx.take i.toNat →
      cur[x]? = l[g x]? ∧ g x ∉ idx ∧ t < g x ∧ g x < l.length ∧ M ≤ g x) ∧
    ∀ x y, x < M → y < M → x ∈ idx.take i.toNat → y ∈ idx.take i.toNat → g x = g y → x = y

theorem removeLoop_spec (l : List α) (idx : List Nat) (h : idx.Pairwise (· < ·))
    (hb : ∀ x ∈ idx, x < l.length) (M : Nat) (hM : M + idx.length = l.length) (hM0 : 0 < M) :
    ∀ (fuel : Nat) (i j t : Int) (cur : List α), (idx.length : Int) - i < fuel → RemInv l idx M i j t cur →
      ∃ r i' j' t', removeLoop idx (M : Int) fuel i j t cur = some r ∧ RemInv l idx M i' j' t' r ∧
        ∀ x (hx : x < idx.length), i' ≤ x → M ≤ idx[x] := by
  intro fuel
  induction fuel with
  | zero => intro i j t cur hf inv; have := inv.ik; omega
  | succ fuel ih =>
    intro i j t cur hf inv
    rw [removeLoop]
    by_cases hc : i ≤ j ∧ i < M
    · rw [if_pos hc]
      have hi0 := inv.i0
      rcases inv.state with ⟨s1, s2, s3⟩ | ⟨s1, _⟩
      · obtain ⟨j', t', e1, e2, e3, e4, e5, e6, e7⟩ := findStay_spec idx h i hi0 (idx.length + 1) j t
          (by omega) s1 s3 inv.tail
        rw [e1]
        dsimp only
        have hik : i.toNat < idx.length := by omega
        rw [List.getElem?_eq_getElem hik]
        dsimp only
        have ht0 : 0 ≤ t' := by omega
        rw [if_pos ht0]
        have htl : t'.toNat < cur.length := by rw [inv.len]; omega
        rw [List.getElem?_eq_getElem htl]
        dsimp only
        have hd : idx[i.toNat] < cur.length := by rw [inv.len]; exact hb _ (List.getElem_mem hik)
        rw [if_pos hd]
        have htake : idx.take (i + 1).toNat = idx.take i.toNat ++ [idx[i.toNat]] := by
          rw [show (i + 1).toNat = i.toNat + 1 by omega, List.take_succ_eq_append_getElem hik]
        -- the element moved, when it matters
        have hstay : idx[i.toNat] < M → i ≤ j' ∧ t'.toNat ∉ idx ∧ M ≤ t'.toNat := by
          intro hlt
          have hij : i ≤ j' := by
            by_cases hij : i ≤ j'
            · exact hij
            · have := e6 i.toNat hik (by omega); omega
          refine ⟨hij, ?_, by omega⟩
          intro hm
          obtain ⟨u, hu, hue⟩ := List.mem_iff_getElem.1 hm
          by_cases huj : (u : Int) ≤ j'
          · have := e7 hij u hu huj; omega
          · have := e6 u hu (by omega); omega
        have hnotin : idx[i.toNat] ∉ idx.take i.toNat := by
          intro hm
          obtain ⟨u, hu, hue⟩ := List.mem_iff_getElem.1 hm
          simp only [List.length_take] at hu
          rw [List.getElem_take] at hue
          have := List.pairwise_iff_getElem.1 h u i.toNat (by omega) hik (by omega)
          omega
        refine ih (i + 1) j' (t' - 1) _ (by omega) ⟨by omega, by omega, by simp [inv.len], ?_, ?_, ?_, ?_⟩
        · intro x hx hxj
          have := e6 x hx hxj; omega
        · by_cases hij : i ≤ j'
          · left; omega
          · right
            refine ⟨by omega, fun x hx hxi => ?_⟩
            have := e6 x hx (by omega)
            omega
        · intro x hx
          rw [htake, List.mem_append, List.mem_singleton, not_or] at hx
          rw [List.getElem?_set_ne (Ne.symm hx.2)]
          exact inv.same x hx.1
        · obtain ⟨g, g1, g2⟩ := inv.moved
          refine ⟨fun x => if x = idx[i.toNat] then t'.toNat else g x, ?_, ?_⟩
          · intro x hx hm
            by_cases e : x = idx[i.toNat]
            · subst e
              obtain ⟨f1, f2, f3⟩ := hstay hx
              simp only [if_true]
              rw [List.getElem?_set_self hd]
              refine ⟨?_, f2, by omega, by rw [← inv.len]; exact htl, f3⟩
              rw [← inv.same t'.toNat (fun hm => f2 (List.mem_of_mem_take hm)), List.getElem?_eq_getElem htl]
            · simp only [e, if_false]
              rw [List.getElem?_set_ne (Ne.symm e)]
              rw [htake, List.mem_append, List.mem_singleton] at hm
              have hm' := hm.resolve_right e
              obtain ⟨a1, a2, a3, a4, a5⟩ := g1 x hx hm'
              exact ⟨a1, a2, by omega, a4, a5⟩
          · intro x y hx hy hmx hmy hxy
            rw [htake, List.mem_append, List.mem_singleton] at hmx hmy
            dsimp only at hxy
            by_cases ex : x = idx[i.toNat] <;> by_cases ey : y = idx[i.toNat]
            · rw [ex, ey]
            · rw [if_pos ex, if_neg ey] at hxy
              have := (g1 y hy (hmy.resolve_right ey)).2.2.1
              omega
            · rw [if_neg ex, if_pos ey] at hxy
              have := (g1 x hx (hmx.resolve_right ex)).2.2.1
              omega
            · rw [if_neg ex, if_neg ey] at hxy
              exact g2 x y hx hy (hmx.resolve_right ex) (hmy.resolve_right ey) hxy
      · omega
    · rw [if_neg hc]
      refine ⟨cur, i, j, t, rfl, inv, ?_⟩
      intro x hx hxi
      rcases inv.state with ⟨s1, s2, s3⟩ | ⟨_, s⟩
      · by_cases hij : i ≤ j
        · have := sorted_ge h x hx
          omega
        · have := inv.tail x hx (by omega)
          omega
      · exact s x hx hxi

theorem range_filterMap (c : List α) : ∀ n, n ≤ c.length →
    (List.range n).filterMap (fun x => c[x]?) = c.take n := by
  intro n
  induction n with
  | zero => intro _; simp
  | succ n ih =>
    intro hn
    rw [List.range_succ, List.filterMap_append, ih (by omega), List.take_succ_eq_append_getElem (by omega)]
    simp [List.getElem?_eq_getElem (show n < c.length by omega)]

theorem remInv_perm (l : List α) (idx : List Nat) (h : idx.Pairwise (· < ·))
    (hb : ∀ x ∈ idx, x < l.length) (M : Nat) (hM : M + idx.length = l.length)
    (i j t : Int) (cur : List α) (inv : RemInv l idx M i j t cur)
    (hend : ∀ x (hx : x < idx.length), i ≤ x → M ≤ idx[x]) :
    (cur.take M).Perm (keepOthers l idx) := by
  obtain ⟨g, g1, g2⟩ := inv.moved
  have hnd : idx.Nodup := h.imp (fun h => Nat.ne_of_lt h)
  have hin : ∀ x, x < M → x ∈ idx → x ∈ idx.take i.toNat := by
    intro x hx hm
    obtain ⟨u, hu, rfl⟩ := List.mem_iff_getElem.1 hm
    rw [List.mem_take_iff_getElem]
    refine ⟨u, ?_, rfl⟩
    have := inv.i0
    by_cases hui : i ≤ u
    · have := hend u hu hui; omega
    · omega
  let f : Nat → Nat := fun x => if x ∈ idx then g x else x
  have hf : ∀ x, x < M → cur[x]? = l[f x]? ∧ f x ∉ idx ∧ f x < l.length := by
    intro x hx
    by_cases e : x ∈ idx
    · obtain ⟨a1, a2, a3, a4, a5⟩ := g1 x hx (hin x hx e)
      simp only [f, e, if_true]
      exact ⟨a1, a2, a4⟩
    · simp only [f, e, if_false]
      exact ⟨inv.same x (fun hm => e (List.mem_of_mem_take hm)), not_false, by omega⟩
  have hinj : ∀ x y, x < M → y < M → f x = f y → x = y := by
    intro x y hx hy hxy
    by_cases ex : x ∈ idx <;> by_cases ey : y ∈ idx <;> simp only [f, ex, ey, if_true, if_false] at hxy
    · exact g2 x y hx hy (hin x hx ex) (hin y hy ey) hxy
    · have := (g1 x hx (hin x hx ex)).2.2.2.2; omega
    · have := (g1 y hy (hin y hy ey)).2.2.2.2; omega
    · exact hxy
  have hperm : ((List.range M).map f).Perm ((List.range l.length).filter (fun p => decide (p ∉ idx))) := by
    refine List.Subperm.perm_of_length_le (List.subperm_of_subset ?_ ?_) ?_
    · rw [List.Nodup, List.pairwise_map]
      refine List.Pairwise.imp_of_mem ?_ List.nodup_range
      intro a b ha hb hab e
      exact hab (hinj a b (List.mem_range.1 ha) (List.mem_range.1 hb) e)
    · intro y hy
      obtain ⟨x, hx, rfl⟩ := List.mem_map.1 hy
      have := hf x (List.mem_range.1 hx)
      simp [this.2.1, this.2.2]
    · have := compl_length l.length idx hnd hb
      simp only [List.length_map, List.length_range]
      omega
  have hcur : cur.take M = ((List.range M).map f).filterMap (fun p => l[p]?) := by
    have hML : M ≤ cur.length := by rw [inv.len]; omega
    rw [← range_filterMap cur M hML, List.filterMap_map]
    apply List.filterMap_congr
    intro x hx
    exact (hf x (List.mem_range.1 hx)).1
  rw [hcur, keepOthers]
  exact hperm.filterMap _

end Fpki.Util
