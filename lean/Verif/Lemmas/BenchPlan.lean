import Mathlib.Algebra.Order.BigOperators.Group.List
import Mathlib.Tactic.Ring
import Mathlib.Tactic.ByContra
import Mathlib.Tactic.Set
import Verif.Lemmas.Bench

/-! Lemmas for `Verif.Props.Bench`: dividing the work. -/
namespace Fpki.Bench

theorem sum_div_mod (W : Nat) : ∀ l : List Nat, W * (l.map (· / W)).sum + (l.map (· % W)).sum = l.sum
  | [] => by simp
  | a :: l => by
    simp only [List.map_cons, List.sum_cons]
    have := sum_div_mod W l
    have := Nat.div_add_mod a W
    rw [Nat.mul_add]
    omega

theorem sum_mod_le (W : Nat) (hW : 0 < W) : ∀ l : List Nat, (l.map (· % W)).sum + l.length ≤ W * l.length
  | [] => by simp
  | a :: l => by
    simp only [List.map_cons, List.sum_cons, List.length_cons]
    have := sum_mod_le W hW l
    have := Nat.mod_lt a hW
    rw [Nat.mul_add]
    omega

theorem sum_mul (t : Nat) : ∀ l : List Nat, (l.map (t * ·)).sum = t * l.sum
  | [] => by simp
  | a :: l => by simp only [List.map_cons, List.sum_cons, sum_mul t l, Nat.mul_add]

theorem floors_eq (total : Nat) (ws : List Nat) : floors total ws = (ws.map (total * ·)).map (· / ws.sum) := by
  unfold floors; rw [List.map_map]; rfl

/-- The integer parts are at most the total, and less than one for each weight is left. -/
theorem floors_left (total : Nat) (ws : List Nat) (hW : 0 < ws.sum) : (floors total ws).sum ≤ total ∧ total - (floors total ws).sum < ws.length := by
  rw [floors_eq]
  have h1 := sum_div_mod ws.sum (ws.map (total * ·))
  have h2 := sum_mod_le ws.sum hW (ws.map (total * ·))
  rw [sum_mul, Nat.mul_comm total] at h1
  rw [List.length_map] at h2
  have hl : 0 < ws.length := by
    cases ws with
    | nil => simp at hW
    | cons a l => simp
  generalize ((ws.map (total * ·)).map (· / ws.sum)).sum = u at *
  generalize ((ws.map (total * ·)).map (· % ws.sum)).sum = m at *
  generalize ws.sum = W at *
  have hle : u ≤ total := by
    by_contra hc
    have : W * (total + 1) ≤ W * u := Nat.mul_le_mul_left _ (by omega)
    rw [Nat.mul_add] at this
    omega
  refine ⟨hle, ?_⟩
  by_contra hc
  have : W * (ws.length + u) ≤ W * total := Nat.mul_le_mul_left _ (by omega)
  rw [Nat.mul_add] at this
  omega

theorem foldl_modify_length (is : List Nat) : ∀ r : List Nat, (is.foldl (fun r i => r.modify i (· + 1)) r).length = r.length := by
  induction is with
  | nil => intro r; rfl
  | cons i is ih => intro r; rw [List.foldl_cons, ih, List.length_modify]

theorem modify_sum : ∀ (r : List Nat) (i : Nat), i < r.length → (r.modify i (· + 1)).sum = r.sum + 1
  | [], i, h => by simp at h
  | a :: r, 0, _ => by simp; omega
  | a :: r, i + 1, h => by
    have := modify_sum r i (by simpa using h)
    simp only [List.modify_succ_cons, List.sum_cons, this]
    omega

theorem foldl_modify_sum (is : List Nat) : ∀ r : List Nat, (∀ i ∈ is, i < r.length) → (is.foldl (fun r i => r.modify i (· + 1)) r).sum = r.sum + is.length := by
  induction is with
  | nil => intro r _; rfl
  | cons i is ih =>
    intro r h
    rw [List.foldl_cons, ih, modify_sum r i (h i List.mem_cons_self), List.length_cons]
    · omega
    · intro j hj; rw [List.length_modify]; exact h j (List.mem_cons_of_mem _ hj)

theorem foldl_modify_get (is : List Nat) (hn : is.Nodup) : ∀ (r : List Nat) (j : Nat), j < r.length →
    (is.foldl (fun r i => r.modify i (· + 1)) r).getD j 0 = r.getD j 0 + if j ∈ is then 1 else 0 := by
  induction is with
  | nil => intro r j _; simp
  | cons i is ih =>
    intro r j hj
    have hn' := List.nodup_cons.1 hn
    rw [List.foldl_cons, ih hn'.2 _ j (by rw [List.length_modify]; exact hj)]
    have hg : (r.modify i (· + 1)).getD j 0 = r.getD j 0 + if j = i then 1 else 0 := by
      rw [List.getD_eq_getElem?_getD, List.getD_eq_getElem?_getD, List.getElem?_modify, List.getElem?_eq_getElem hj]
      by_cases h : i = j
      · subst h; simp
      · simp [h, Ne.symm h]
    rw [hg]
    by_cases h : j = i
    · subst h
      simp [hn'.1]
    · simp [h]

theorem floors_get (total : Nat) (ws : List Nat) (i : Nat) : (floors total ws).getD i 0 = total * ws.getD i 0 / ws.sum := by
  unfold floors
  rw [List.getD_eq_getElem?_getD, List.getD_eq_getElem?_getD, List.getElem?_map]
  cases ws[i]? <;> simp

/-- What `largestRemainder` returns. -/
theorem remainder_spec (total : Nat) (ws : List Nat) (hW : 0 < ws.sum) : ∃ out, largestRemainder total ws = some out ∧ out.length = ws.length ∧ out.sum = total ∧
    ∀ i < ws.length, total * ws.getD i 0 / ws.sum ≤ out.getD i 0 ∧ out.getD i 0 ≤ total * ws.getD i 0 / ws.sum + 1 ∧
      (ws.sum ∣ total → out.getD i 0 = total * ws.getD i 0 / ws.sum) := by
  unfold largestRemainder
  by_cases h0 : total = 0
  · subst h0
    rw [if_pos (Or.inl rfl)]
    refine ⟨_, rfl, by simp, by simp, ?_⟩
    intro i hi
    have : (ws.map (fun _ => 0)).getD i 0 = 0 := by
      rw [List.getD_eq_getElem?_getD, List.getElem?_map]; cases ws[i]? <;> rfl
    rw [this]; simp
  rw [if_neg (by omega)]
  dsimp only
  obtain ⟨h1, h2⟩ := floors_left total ws hW
  set order := (List.range ws.length).insertionSort (before total ws) with ho
  have hperm : order.Perm (List.range ws.length) := List.perm_insertionSort _ _
  have hlen : order.length = ws.length := by rw [hperm.length_eq, List.length_range]
  have hfl : (floors total ws).length = ws.length := by unfold floors; simp
  rw [if_neg (by omega)]
  refine ⟨_, rfl, ?_, ?_, ?_⟩
  · rw [foldl_modify_length, hfl]
  · rw [foldl_modify_sum, List.length_take, hlen]
    · omega
    · intro i hi
      rw [hfl]
      exact List.mem_range.1 (hperm.mem_iff.1 (List.mem_of_mem_take hi))
  · intro i hi
    have hnd : (order.take (total - (floors total ws).sum)).Nodup := (hperm.nodup_iff.2 List.nodup_range).sublist (List.take_sublist _ _)
    rw [foldl_modify_get _ hnd _ i (by omega), floors_get]
    refine ⟨by omega, by split <;> omega, ?_⟩
    rintro ⟨q, hq⟩
    have hz : (floors total ws).sum = total := by
      have h3 := sum_div_mod ws.sum (ws.map (total * ·))
      rw [sum_mul, ← floors_eq] at h3
      have h4 : ((ws.map (total * ·)).map (· % ws.sum)).sum = 0 := by
        apply List.sum_eq_zero
        intro x hx
        simp only [List.map_map, List.mem_map, Function.comp] at hx
        obtain ⟨w, _, rfl⟩ := hx
        rw [hq, Nat.mul_assoc]
        exact Nat.mul_mod_right _ _
      rw [h4, Nat.add_zero, Nat.mul_comm total] at h3
      exact Nat.eq_of_mul_eq_mul_left hW h3
    rw [hz, Nat.sub_self, List.take_zero]
    simp

/-- `n` numbers, at most `a` of which are not 0. -/
theorem sum_few (W : Nat) (f : Nat → Nat) (hf : ∀ i, f i ≤ W) : ∀ l : List Nat, (l.map f).sum ≤ l.length * W
  | [] => by simp
  | a :: l => by
    simp only [List.map_cons, List.sum_cons, List.length_cons]
    have := sum_few W f hf l
    have := hf a
    rw [Nat.succ_mul]
    omega

theorem sum_rem (total : Nat) (ws : List Nat) : ((List.range ws.length).map (remAt total ws)).sum = ((ws.map (total * ·)).map (· % ws.sum)).sum := by
  congr 1
  rw [List.map_map]
  apply List.ext_getElem
  · simp
  · intro i h1 h2
    simp only [List.getElem_map, List.getElem_range, Function.comp, remAt]
    have hi : i < ws.length := by simpa using h2
    rw [List.getD_eq_getElem?_getD, List.getElem?_eq_getElem hi]
    rfl

instance (total : Nat) (ws : List Nat) : Std.Total (before total ws) := ⟨fun a b => by unfold before; omega⟩
instance (total : Nat) (ws : List Nat) : IsTrans Nat (before total ws) := ⟨fun a b c => by unfold before; omega⟩

/-- An index without a fractional part gets nothing more. -/
theorem no_unit (total : Nat) (ws : List Nat) (hW : 0 < ws.sum) (i : Nat) (h0 : remAt total ws i = 0) :
    i ∉ ((List.range ws.length).insertionSort (before total ws)).take (total - (floors total ws).sum) := by
  intro hi
  obtain ⟨h1, h2⟩ := floors_left total ws hW
  set order := (List.range ws.length).insertionSort (before total ws) with ho
  set left := total - (floors total ws).sum with hl
  have hperm : order.Perm (List.range ws.length) := List.perm_insertionSort _ _
  have hsort : order.Pairwise (before total ws) := List.pairwise_insertionSort _ _
  obtain ⟨a, b, hab⟩ := List.append_of_mem hi
  have hal : a.length < left := by
    have := congrArg List.length hab
    rw [List.length_take, List.length_append, List.length_cons] at this
    omega
  have hdec : order = a ++ i :: (b ++ order.drop left) := by
    conv => lhs; rw [← List.take_append_drop left order, hab]
    simp
  have hrest : ∀ j ∈ b ++ order.drop left, remAt total ws j = 0 := by
    intro j hj
    rw [hdec, List.pairwise_append] at hsort
    have := (List.pairwise_cons.1 hsort.2.1).1 j hj
    unfold before at this
    omega
  have hsum : (order.map (remAt total ws)).sum = ws.sum * left := by
    rw [(hperm.map _).sum_eq, sum_rem]
    have h3 := sum_div_mod ws.sum (ws.map (total * ·))
    rw [sum_mul, ← floors_eq] at h3
    rw [hl, Nat.mul_sub, Nat.mul_comm ws.sum total]
    omega
  rw [hdec, List.map_append, List.map_cons, List.sum_append, List.sum_cons, h0, List.sum_eq_zero (l := List.map (remAt total ws) (b ++ order.drop left))] at hsum
  · have := sum_few ws.sum (remAt total ws) (fun i => (Nat.mod_lt _ hW).le) a
    have h5 : (a.length + 1) * ws.sum ≤ left * ws.sum := Nat.mul_le_mul_right _ hal
    rw [Nat.succ_mul, Nat.mul_comm left] at h5
    omega
  · intro x hx
    obtain ⟨j, hj, rfl⟩ := List.mem_map.1 hx
    exact hrest j hj

/-- The result of `largestRemainder` is the exact share, rounded down or up. -/
theorem remainder_quota (total : Nat) (ws : List Nat) (hW : 0 < ws.sum) : ∃ out, largestRemainder total ws = some out ∧ out.length = ws.length ∧ out.sum = total ∧
    ∀ i < ws.length, total * ws.getD i 0 < (out.getD i 0 + 1) * ws.sum ∧ out.getD i 0 * ws.sum < total * ws.getD i 0 + ws.sum := by
  obtain ⟨out, h1, h2, h3, h4⟩ := remainder_spec total ws hW
  refine ⟨out, h1, h2, h3, ?_⟩
  intro i hi
  obtain ⟨h5, h6, _⟩ := h4 i hi
  have hdm := Nat.div_add_mod (total * ws.getD i 0) ws.sum
  have hm := Nat.mod_lt (total * ws.getD i 0) hW
  refine ⟨?_, ?_⟩
  · have : (total * ws.getD i 0 / ws.sum + 1) * ws.sum ≤ (out.getD i 0 + 1) * ws.sum := Nat.mul_le_mul_right _ (by omega)
    rw [Nat.add_mul (total * ws.getD i 0 / ws.sum), Nat.mul_comm _ ws.sum] at this
    omega
  · by_cases hz : remAt total ws i = 0
    · have he : out.getD i 0 = total * ws.getD i 0 / ws.sum := by
        by_cases h0 : total = 0
        · subst h0
          have : out.getD i 0 ≤ out.sum := by
            rw [List.getD_eq_getElem?_getD, List.getElem?_eq_getElem (by omega)]
            exact List.single_le_sum (by simp) _ (List.getElem_mem _)
          simp
          rw [h3] at this
          simpa using this
        · unfold largestRemainder at h1
          rw [if_neg (by omega)] at h1
          dsimp only at h1
          split at h1
          · cases h1
          · simp only [Option.some.injEq] at h1
            have hnd := ((List.perm_insertionSort (before total ws) (List.range ws.length)).nodup_iff.2 List.nodup_range).sublist (List.take_sublist (total - (floors total ws).sum) _)
            rw [← h1, foldl_modify_get _ hnd _ i (by unfold floors; simpa using hi), floors_get, if_neg (no_unit total ws hW i hz)]
            rfl
      rw [he, Nat.mul_comm _ ws.sum]
      omega
    · have : out.getD i 0 * ws.sum ≤ (total * ws.getD i 0 / ws.sum + 1) * ws.sum := Nat.mul_le_mul_right _ h6
      rw [Nat.add_mul, Nat.mul_comm (_ / _) ws.sum, Nat.one_mul] at this
      unfold remAt at hz
      omega

theorem any_zip_false : ∀ (a b : List Nat), (∀ i < a.length, a.getD i 0 ≤ b.getD i 0) → a.length = b.length → (a.zip b).any (fun x => x.2 < x.1) = false
  | [], _, _, _ => rfl
  | x :: a, [], _, h => by simp at h
  | x :: a, y :: b, h, hl => by
    rw [List.zip_cons_cons, List.any_cons, any_zip_false a b (fun i hi => by simpa using h (i + 1) (by simpa using hi)) (by simpa using hl)]
    have := h 0 (by simp)
    simp at this
    simp; omega

/-- `allocatePerPartition` does not panic if the capacities suffice. -/
theorem allocate_spec (cap : List Nat) (total : Nat) (h : total ≤ cap.sum) : ∃ out, allocatePerPartition cap total = some out ∧ out.length = cap.length ∧ out.sum = total ∧
    (∀ i < cap.length, out.getD i 0 ≤ cap.getD i 0) ∧ (0 < cap.sum → ∀ i < cap.length, out.getD i 0 * cap.sum < total * cap.getD i 0 + cap.sum) := by
  unfold allocatePerPartition
  by_cases hW : 0 < cap.sum
  · obtain ⟨out, h1, h2, h3, h4⟩ := remainder_quota total cap hW
    rw [h1]
    dsimp only
    have hle : ∀ i < cap.length, out.getD i 0 ≤ cap.getD i 0 := by
      intro i hi
      have h5 := (h4 i hi).2
      have h6 : total * cap.getD i 0 ≤ cap.sum * cap.getD i 0 := Nat.mul_le_mul_right _ h
      by_contra hc
      have h7 : (cap.getD i 0 + 1) * cap.sum ≤ out.getD i 0 * cap.sum := Nat.mul_le_mul_right _ (by omega)
      rw [Nat.succ_mul, Nat.mul_comm _ cap.sum] at h7
      omega
    rw [any_zip_false out cap (fun i hi => hle i (by omega)) h2]
    exact ⟨out, rfl, h2, h3, hle, fun _ i hi => (h4 i hi).2⟩
  · have h0 : cap.sum = 0 := by omega
    have ht : total = 0 := by omega
    have hz : largestRemainder total cap = some (cap.map (fun _ => 0)) := by
      unfold largestRemainder; rw [if_pos (Or.inl ht)]
    rw [hz]
    dsimp only
    have hg : ∀ i, (cap.map (fun _ => 0)).getD i 0 = 0 := by
      intro i; rw [List.getD_eq_getElem?_getD, List.getElem?_map]; cases cap[i]? <;> rfl
    rw [any_zip_false _ cap (fun i _ => by rw [hg]; exact Nat.zero_le _) (by simp)]
    exact ⟨_, rfl, by simp, by rw [ht]; simp, fun i _ => by rw [hg]; exact Nat.zero_le _, fun h => absurd h hW⟩

theorem mixed_spec (active balance : Nat) (hb : balance ≤ 75) : mixedDomainsForBalance active balance ≤ active ∧
    600 * mixedDomainsForBalance active balance ≤ 8 * (active * balance) + 300 ∧ 8 * (active * balance) < 600 * mixedDomainsForBalance active balance + 300 + 1 := by
  unfold mixedDomainsForBalance
  split
  · rename_i h
    rcases h with rfl | rfl <;> simp
  · have hx : active * 4 * balance = 4 * (active * balance) := by ring
    rw [hx]
    have hle : active * balance ≤ active * 75 := Nat.mul_le_mul_left _ hb
    generalize active * balance = x at *
    rw [Nat.min_eq_left (by omega)]
    omega

theorem skew_weights (skew : Skew) : (weightsOf skew).length = 32 ∧ 0 < (weightsOf skew).sum ∧ ∀ i < 32, 3 * (weightsOf skew).sum ≤ 112 * (weightsOf skew).getD i 0 := by
  cases skew <;> decide

theorem plan_spec (dirty : Nat) (skew : Skew) (balance : Nat) (hd : 20480 ≤ dirty) (hb : balance ≤ 75) : ∃ p, plan dirty skew balance = some p ∧
    p.total.length = 32 ∧ p.certOnly.length = 32 ∧ p.mixed.length = 32 ∧ p.stale.length = 32 ∧ p.total.sum = dirty ∧ p.certOnly.sum = p.certOnlyCount ∧ p.mixed.sum = p.mixedCount ∧
    p.certOnlyCount + p.mixedCount + p.staleCount = dirty ∧ p.staleCount = dirty * 5 / 1000 ∧
    p.mixedCount = mixedDomainsForBalance (dirty - dirty * 5 / 1000) balance ∧
    (∀ i < 32, p.stale.getD i 0 = p.total.getD i 0 - p.certOnly.getD i 0 - p.mixed.getD i 0 ∧ 0 ≤ p.stale.getD i 0) ∧
    ∀ i < 32, dirty * (weightsOf skew).getD i 0 < (p.total.getD i 0 + 1) * (weightsOf skew).sum ∧ p.total.getD i 0 * (weightsOf skew).sum < dirty * (weightsOf skew).getD i 0 + (weightsOf skew).sum := by
  obtain ⟨w1, w2, w3⟩ := skew_weights skew
  obtain ⟨t, t1, t2, t3, t4⟩ := remainder_quota dirty (weightsOf skew) w2
  have hm := (mixed_spec (dirty - dirty * 5 / 1000) balance hb).1
  unfold plan distributeBySkew
  rw [t1]
  dsimp only
  set S := dirty * 5 / 1000 with hS
  set M := mixedDomainsForBalance (dirty - S) balance with hM
  obtain ⟨c, c1, c2, c3, c4, c5⟩ := allocate_spec t (dirty - S - M) (by omega)
  obtain ⟨m, m1, m2, m3, m4, m5⟩ := allocate_spec t M (by omega)
  rw [c1, m1]
  dsimp only
  refine ⟨_, rfl, by dsimp only; omega, by dsimp only; omega, by dsimp only; omega, ?_, t3, c3, m3, by dsimp only; omega, rfl, rfl, ?_, fun i hi => t4 i (by omega)⟩
  · simp [partitionCount]
  · intro i hi
    have hg : ((List.range partitionCount).map (fun p => (t.getD p 0 : Int) - c.getD p 0 - m.getD p 0)).getD i 0 = (t.getD i 0 : Int) - c.getD i 0 - m.getD i 0 := by
      rw [List.getD_eq_getElem?_getD, List.getElem?_map, List.getElem?_range (show i < partitionCount from hi)]
      rfl
    refine ⟨hg, ?_⟩
    dsimp only
    rw [hg]
    have h1 := c5 (by omega) i (by omega)
    have h2 := m5 (by omega) i (by omega)
    have h3 := (t4 i (by omega)).1
    have h4 := w3 i hi
    rw [t3] at h1 h2
    generalize t.getD i 0 = ti at *
    generalize c.getD i 0 = ci at *
    generalize m.getD i 0 = mi at *
    generalize (weightsOf skew).getD i 0 = wi at *
    generalize (weightsOf skew).sum = W at *
    have h51 : dirty ≤ 51 * ti := by
      by_contra hc
      have e1 : dirty * (3 * W) ≤ dirty * (112 * wi) := Nat.mul_le_mul_left _ h4
      have e2 : 112 * (dirty * wi) < 112 * ((ti + 1) * W) := by omega
      have e3 : dirty * 3 * W < 112 * (ti + 1) * W := by
        calc dirty * 3 * W = dirty * (3 * W) := by ring
          _ ≤ dirty * (112 * wi) := e1
          _ = 112 * (dirty * wi) := by ring
          _ < 112 * ((ti + 1) * W) := e2
          _ = 112 * (ti + 1) * W := by ring
      have e4 := Nat.lt_of_mul_lt_mul_right e3
      omega
    have hSt : 2 * dirty ≤ S * ti := by
      have : 102 * ti ≤ S * ti := Nat.mul_le_mul_right _ (by omega)
      omega
    have hMS : S + M ≤ dirty := by omega
    obtain ⟨q, hq⟩ : ∃ q, dirty = S + M + q := ⟨dirty - (S + M), by omega⟩
    have e5 : dirty - S - M = q := by omega
    rw [e5] at h1
    have e6 : (ci + mi) * dirty < (q + M) * ti + 2 * dirty := by
      have := Nat.add_lt_add h1 h2
      calc (ci + mi) * dirty = ci * dirty + mi * dirty := by ring
        _ < _ := this
        _ = (q + M) * ti + 2 * dirty := by ring
    have e7 : (q + M) * ti + S * ti = dirty * ti := by rw [hq]; ring
    have e8 : (ci + mi) * dirty < ti * dirty := by rw [Nat.mul_comm ti dirty]; omega
    have := Nat.lt_of_mul_lt_mul_right e8
    omega

end Fpki.Bench
