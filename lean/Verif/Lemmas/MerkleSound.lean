import Verif.Lemmas.MerkleLog
/-! # What a successful climb proves -/
namespace Fpki.MerkleLog

variable (H : Bytes → Bytes)

theorem children_inj {P : Bytes → Prop} (inj : ∀ x y, P x → P y → H x = H y → x = y) {a b c d : Bytes} (h1 : P (0x01 :: (a ++ b))) (h2 : P (0x01 :: (c ++ d)))
    (h : hashChildren H a b = hashChildren H c d) : a ++ b = c ++ d := by
  have := inj _ _ h1 h2 h
  simpa using this

theorem get_some {l : List Bytes} {i : Nat} (h : i < l.length) : ∃ a, l[i]? = some a := ⟨l[i], List.getElem?_eq_getElem h⟩

theorem get_32 {l : List Bytes} {i : Nat} {a : Bytes} (h32 : ∀ x ∈ l, x.length = 32) (h : l[i]? = some a) : a.length = 32 := h32 a (List.mem_of_getElem? h)

theorem climb_sound (hH : ∀ x, (H x).length = 32) (P : Bytes → Prop) (inj : ∀ x y, P x → P y → H x = H y → x = y) :
    ∀ (last i : Nat) (h : Bytes) (ps l : List Bytes), l.length = last + 1 → i ≤ last → (∀ x ∈ l, x.length = 32) → h.length = 32 → (∀ x ∈ inputs H l, P x) →
      (∀ x ∈ climbInputs H i last h ps, P x) → climb H i last h ps = some (mth H l) → l[i]? = some h := by
  intro last
  induction last using Nat.strongRecOn with
  | ind last ih =>
    intro i h ps l hl hi h32 hh hp hq hc
    rw [climb.eq_def] at hc
    rw [climbInputs.eq_def] at hq
    by_cases h0 : last = 0
    · subst h0
      have hi0 : i = 0 := by omega
      subst hi0
      rw [dif_pos rfl] at hc
      split at hc
      · match l, hl with
        | [x], _ =>
          rw [mth] at hc
          exact hc.symm
      · cases hc
    · rw [dif_neg h0] at hc hq
      have hl2 : (level H l).length = last / 2 + 1 := by rw [level_length]; omega
      have hp2 : ∀ x ∈ inputs H (level H l), P x := fun x hx => hp x ((inputs_level H l x).2 (.inr hx))
      have h322 := level_32 H hH l h32
      by_cases ho : i % 2 = 1
      · rw [if_pos ho] at hc hq
        cases ps with
        | nil => cases hc
        | cons p ps =>
          dsimp only at hc hq
          have := ih (last / 2) (by omega) (i / 2) _ ps (level H l) hl2 (by omega) h322 (hH _) hp2 (fun x hx => hq x (List.mem_cons_of_mem _ hx)) (by rw [mth_level]; exact hc)
          have e : i = 2 * (i / 2) + 1 := by omega
          obtain ⟨a, ha⟩ := get_some (l := l) (i := 2 * (i / 2)) (by omega)
          obtain ⟨b, hb⟩ := get_some (l := l) (i := 2 * (i / 2) + 1) (by omega)
          rw [level_get H l _ a b ha hb, Option.some.injEq] at this
          have hab := children_inj H inj (hp _ ((inputs_level H l _).2 (.inl (levelInputs_get l _ a b ha hb)))) (hq _ (by simp)) this
          have := (List.append_inj' hab (by rw [get_32 h32 hb, hh])).2
          rw [e, hb, this]
      · rw [if_neg ho] at hc hq
        by_cases he : i = last
        · rw [if_pos he] at hc hq
          have := ih (last / 2) (by omega) (i / 2) _ ps (level H l) hl2 (by omega) h322 hh hp2 hq (by rw [mth_level]; exact hc)
          rw [level_get_last H l (i / 2) (by omega)] at this
          rwa [show 2 * (i / 2) = i by omega] at this
        · rw [if_neg he] at hc hq
          cases ps with
          | nil => cases hc
          | cons p ps =>
            dsimp only at hc hq
            have := ih (last / 2) (by omega) (i / 2) _ ps (level H l) hl2 (by omega) h322 (hH _) hp2 (fun x hx => hq x (List.mem_cons_of_mem _ hx)) (by rw [mth_level]; exact hc)
            have e : i = 2 * (i / 2) := by omega
            obtain ⟨a, ha⟩ := get_some (l := l) (i := 2 * (i / 2)) (by omega)
            obtain ⟨b, hb⟩ := get_some (l := l) (i := 2 * (i / 2) + 1) (by omega)
            rw [level_get H l _ a b ha hb, Option.some.injEq] at this
            have hab := children_inj H inj (hp _ ((inputs_level H l _).2 (.inl (levelInputs_get l _ a b ha hb)))) (hq _ (by simp)) this
            have := (List.append_inj hab (by rw [get_32 h32 ha, hh])).1
            rw [e, ha, this]

/-! ## Two trees -/

/-- Two levels of 32-byte hashes that agree come from the same lists. -/
theorem level_inj {P : Bytes → Prop} (inj : ∀ x y, P x → P y → H x = H y → x = y) : ∀ (a b : List Bytes), a.length = b.length → (∀ x ∈ a, x.length = 32) → (∀ x ∈ b, x.length = 32) →
    (∀ x ∈ levelInputs a, P x) → (∀ x ∈ levelInputs b, P x) → level H a = level H b → a = b
  | [], [], _, _, _, _, _, _ => rfl
  | [], _ :: _, h, _, _, _, _, _ => by simp at h
  | _ :: _, [], h, _, _, _, _, _ => by simp at h
  | [x], [y], _, _, _, _, _, h => by simpa [level] using h
  | [x], y :: z :: b, h, _, _, _, _, _ => by simp at h
  | x :: y :: a, [z], h, _, _, _, _, _ => by simp at h
  | x :: y :: a, z :: w :: b, h, h1, h2, hp, hq, hl => by
    simp only [level, List.cons.injEq] at hl
    have hxy := children_inj H inj (hp _ (by simp [levelInputs])) (hq _ (by simp [levelInputs])) hl.1
    have := List.append_inj hxy (by rw [h1 x (by simp), h2 z (by simp)])
    rw [this.1, this.2, level_inj inj a b (by simpa using h) (fun x hx => h1 x (by simp [hx])) (fun x hx => h2 x (by simp [hx]))
      (fun x hx => hp x (by simp [levelInputs, hx])) (fun x hx => hq x (by simp [levelInputs, hx])) hl.2]

/-- A tree hash determines the leaf hashes, for a known size. -/
theorem mth_inj (hH : ∀ x, (H x).length = 32) {P : Bytes → Prop} (inj : ∀ x y, P x → P y → H x = H y → x = y) : ∀ (n : Nat) (a b : List Bytes), a.length = n → b.length = n →
    (∀ x ∈ a, x.length = 32) → (∀ x ∈ b, x.length = 32) → (∀ x ∈ inputs H a, P x) → (∀ x ∈ inputs H b, P x) → mth H a = mth H b → a = b := by
  intro n
  induction n using Nat.strongRecOn with
  | ind n ih =>
    intro a b ha hb h1 h2 hp hq h
    by_cases hn : n < 2
    · match a, b with
      | [], [] => rfl
      | [], _ :: _ => simp at ha hb; omega
      | _ :: _, [] => simp at ha hb; omega
      | [x], [y] => simpa [mth] using h
      | x :: y :: a, _ => simp at ha; omega
      | _, x :: y :: b => simp at hb; omega
    · refine level_inj H inj a b (by omega) h1 h2 (fun x hx => hp x ((inputs_level H a x).2 (.inl hx))) (fun x hx => hq x ((inputs_level H b x).2 (.inl hx))) ?_
      exact ih ((n + 1) / 2) (by omega) _ _ (by rw [level_length, ha]) (by rw [level_length, hb]) (level_32 H hH a h1) (level_32 H hH b h2)
        (fun x hx => hp x ((inputs_level H a x).2 (.inr hx))) (fun x hx => hq x ((inputs_level H b x).2 (.inr hx))) (by rw [mth_level, mth_level, h])

theorem take_level_inj {P : Bytes → Prop} (inj : ∀ x y, P x → P y → H x = H y → x = y) (a b : List Bytes) (q : Nat) (ha : 2 * q ≤ a.length) (hb : 2 * q ≤ b.length)
    (h1 : ∀ x ∈ a, x.length = 32) (h2 : ∀ x ∈ b, x.length = 32) (hp : ∀ x ∈ levelInputs a, P x) (hq : ∀ x ∈ levelInputs b, P x)
    (h : (level H a).take q = (level H b).take q) : a.take (2 * q) = b.take (2 * q) := by
  rw [← level_take H a q ha, ← level_take H b q hb] at h
  have sub : ∀ (l : List Bytes) (x : Bytes), 2 * q ≤ l.length → x ∈ levelInputs (l.take (2 * q)) → x ∈ levelInputs l := by
    intro l x hl hx
    have := levelInputs_append (l.take (2 * q)) (l.drop (2 * q)) (by rw [List.length_take]; omega)
    rw [List.take_append_drop] at this
    rw [this]
    simp [hx]
  exact level_inj H inj _ _ (by rw [List.length_take, List.length_take]; omega) (fun x hx => h1 x (List.mem_of_mem_take hx)) (fun x hx => h2 x (List.mem_of_mem_take hx))
    (fun x hx => hp x (sub a x ha hx)) (fun x hx => hq x (sub b x hb hx)) h

/-- Both climbs of a consistency proof: the smaller tree ends at the index, in the larger tree the same leaves come first. -/
theorem climb_both (hH : ∀ x, (H x).length = 32) (P : Bytes → Prop) (inj : ∀ x y, P x → P y → H x = H y → x = y) :
    ∀ (last i : Nat) (h h1 : Bytes) (ps l1 l2 : List Bytes), l2.length = last + 1 → l1.length = i + 1 → i ≤ last → (∀ x ∈ l1, x.length = 32) → (∀ x ∈ l2, x.length = 32) →
      (h.length = 32 ∨ (i % 2 = 0 ∧ i ≠ last ∧ h1 = h)) → (∀ x ∈ inputs H l1, P x) → (∀ x ∈ inputs H l2, P x) →
      (∀ x ∈ climbInputs H i last h ps, P x) → (∀ x ∈ climbRInputs H i last h1 ps, P x) → climb H i last h ps = some (mth H l2) → climbR H i last h1 ps = some (mth H l1) →
      l2[i]? = some h ∧ l1[i]? = some h1 ∧ l1.take i = l2.take i := by
  intro last
  induction last using Nat.strongRecOn with
  | ind last ih =>
    intro i h h1 ps l1 l2 hl2 hl1 hi h321 h322 hh hp1 hp2 hq hr hc hd
    rw [climb.eq_def] at hc
    rw [climbR.eq_def] at hd
    rw [climbInputs.eq_def] at hq
    rw [climbRInputs.eq_def] at hr
    by_cases h0 : last = 0
    · subst h0
      have hi0 : i = 0 := by omega
      subst hi0
      rw [dif_pos rfl] at hc hd
      split at hc
      · rename_i hps
        rw [if_pos hps] at hd
        match l1, l2, hl1, hl2 with
        | [x], [y], _, _ =>
          rw [mth] at hc hd
          exact ⟨hc.symm, hd.symm, rfl⟩
      · cases hc
    · rw [dif_neg h0] at hc hq hd hr
      have hl2' : (level H l2).length = last / 2 + 1 := by rw [level_length]; omega
      have hl1' : (level H l1).length = i / 2 + 1 := by rw [level_length]; omega
      have hp2' : ∀ x ∈ inputs H (level H l2), P x := fun x hx => hp2 x ((inputs_level H l2 x).2 (.inr hx))
      have hp1' : ∀ x ∈ inputs H (level H l1), P x := fun x hx => hp1 x ((inputs_level H l1 x).2 (.inr hx))
      have hv2 : ∀ x ∈ levelInputs l2, P x := fun x hx => hp2 x ((inputs_level H l2 x).2 (.inl hx))
      have hv1 : ∀ x ∈ levelInputs l1, P x := fun x hx => hp1 x ((inputs_level H l1 x).2 (.inl hx))
      have h322' := level_32 H hH l2 h322
      have h321' := level_32 H hH l1 h321
      by_cases ho : i % 2 = 1
      · rw [if_pos ho] at hc hq hd hr
        have hh : h.length = 32 := by
          rcases hh with hh | hh
          · exact hh
          · omega
        cases ps with
        | nil => cases hc
        | cons p ps =>
          dsimp only at hc hq hd hr
          obtain ⟨g2, g1, gt⟩ := ih (last / 2) (by omega) (i / 2) _ _ ps (level H l1) (level H l2) hl2' hl1' (by omega) h321' h322' (.inl (hH _)) hp1' hp2'
            (fun x hx => hq x (List.mem_cons_of_mem _ hx)) (fun x hx => hr x (List.mem_cons_of_mem _ hx)) (by rw [mth_level]; exact hc) (by rw [mth_level]; exact hd)
          have e : i = 2 * (i / 2) + 1 := by omega
          obtain ⟨a, ha⟩ := get_some (l := l2) (i := 2 * (i / 2)) (by omega)
          obtain ⟨b, hb⟩ := get_some (l := l2) (i := 2 * (i / 2) + 1) (by omega)
          obtain ⟨a', ha'⟩ := get_some (l := l1) (i := 2 * (i / 2)) (by omega)
          obtain ⟨b', hb'⟩ := get_some (l := l1) (i := 2 * (i / 2) + 1) (by omega)
          rw [level_get H l2 _ a b ha hb, Option.some.injEq] at g2
          rw [level_get H l1 _ a' b' ha' hb', Option.some.injEq] at g1
          have hab := children_inj H inj (hv2 _ (levelInputs_get l2 _ a b ha hb)) (hq _ (by simp)) g2
          obtain ⟨hpa, hhb⟩ := List.append_inj' hab (by rw [get_32 h322 hb, hh])
          have hab' := children_inj H inj (hv1 _ (levelInputs_get l1 _ a' b' ha' hb')) (hr _ (by simp)) g1
          obtain ⟨hpa', hhb'⟩ := List.append_inj hab' (by rw [get_32 h321 ha', ← hpa, get_32 h322 ha])
          have ht := take_level_inj H inj l1 l2 (i / 2) (by omega) (by omega) h321 h322 hv1 hv2 gt
          refine ⟨by rw [e, hb, hhb], by rw [e, hb', hhb'], ?_⟩
          rw [e, List.take_add_one, List.take_add_one, ht, ha, ha', hpa, hpa']
      · rw [if_neg ho] at hc hq hd hr
        have e : i = 2 * (i / 2) := by omega
        by_cases he : i = last
        · rw [if_pos he] at hc hq hd hr
          have hh : h.length = 32 := by
            rcases hh with hh | hh
            · exact hh
            · omega
          obtain ⟨g2, g1, gt⟩ := ih (last / 2) (by omega) (i / 2) _ _ ps (level H l1) (level H l2) hl2' hl1' (by omega) h321' h322' (.inl hh) hp1' hp2' hq hr
            (by rw [mth_level]; exact hc) (by rw [mth_level]; exact hd)
          rw [level_get_last H l2 (i / 2) (by omega), ← e] at g2
          rw [level_get_last H l1 (i / 2) (by omega), ← e] at g1
          have ht := take_level_inj H inj l1 l2 (i / 2) (by omega) (by omega) h321 h322 hv1 hv2 gt
          rw [← e] at ht
          exact ⟨g2, g1, ht⟩
        · rw [if_neg he] at hc hq hd hr
          cases ps with
          | nil => cases hc
          | cons p ps =>
            dsimp only at hc hq hd hr
            obtain ⟨g2, g1, gt⟩ := ih (last / 2) (by omega) (i / 2) _ _ ps (level H l1) (level H l2) hl2' hl1' (by omega) h321' h322' (.inl (hH _)) hp1' hp2'
              (fun x hx => hq x (List.mem_cons_of_mem _ hx)) hr (by rw [mth_level]; exact hc) (by rw [mth_level]; exact hd)
            obtain ⟨a, ha⟩ := get_some (l := l2) (i := 2 * (i / 2)) (by omega)
            obtain ⟨b, hb⟩ := get_some (l := l2) (i := 2 * (i / 2) + 1) (by omega)
            rw [level_get H l2 _ a b ha hb, Option.some.injEq] at g2
            rw [level_get_last H l1 (i / 2) (by omega), ← e] at g1
            have hh : h.length = 32 := by
              rcases hh with hh | ⟨_, _, hh⟩
              · exact hh
              · rw [← hh]; exact get_32 h321 g1
            have hab := children_inj H inj (hv2 _ (levelInputs_get l2 _ a b ha hb)) (hq _ (by simp)) g2
            obtain ⟨hpa, _⟩ := List.append_inj hab (by rw [get_32 h322 ha, hh])
            have ht := take_level_inj H inj l1 l2 (i / 2) (by omega) (by omega) h321 h322 hv1 hv2 gt
            rw [← e] at ht ha
            exact ⟨by rw [ha, hpa], g1, ht⟩

/-! ## Higher levels -/

/-- The level `j` above. -/
def up : Nat → List Bytes → List Bytes
  | 0, l => l
  | j + 1, l => up j (level H l)

theorem up_length : ∀ (j : Nat) (l : List Bytes), l ≠ [] → (up H j l).length = (l.length - 1) / 2 ^ j + 1
  | 0, l, h => by
    have := List.length_pos_iff.2 h
    simp only [up, Nat.pow_zero, Nat.div_one]
    omega
  | j + 1, l, h => by
    have hp := List.length_pos_iff.2 h
    have hn : level H l ≠ [] := by
      intro hh
      have := level_length H l
      rw [hh, List.length_nil] at this
      omega
    rw [up, up_length j _ hn, level_length, show (l.length + 1) / 2 - 1 = (l.length - 1) / 2 by omega, Nat.div_div_eq_div_mul, Nat.pow_succ, Nat.mul_comm (2 ^ j) 2]

theorem up_mth : ∀ (j : Nat) (l : List Bytes), mth H (up H j l) = mth H l
  | 0, _ => rfl
  | j + 1, l => by rw [up, up_mth j, mth_level]

theorem up_inputs : ∀ (j : Nat) (l : List Bytes) (x : Bytes), x ∈ inputs H (up H j l) → x ∈ inputs H l
  | 0, _, _, h => h
  | j + 1, l, x, h => (inputs_level H l x).2 (.inr (up_inputs j _ x h))

theorem up_32 (hH : ∀ x, (H x).length = 32) : ∀ (j : Nat) (l : List Bytes), (∀ x ∈ l, x.length = 32) → ∀ x ∈ up H j l, x.length = 32
  | 0, _, h => h
  | j + 1, l, h => up_32 hH j _ (level_32 H hH l h)

theorem up_take_inj (hH : ∀ x, (H x).length = 32) {P : Bytes → Prop} (inj : ∀ x y, P x → P y → H x = H y → x = y) : ∀ (j : Nat) (a b : List Bytes) (q : Nat), q * 2 ^ j ≤ a.length →
    q * 2 ^ j ≤ b.length → (∀ x ∈ a, x.length = 32) → (∀ x ∈ b, x.length = 32) → (∀ x ∈ inputs H a, P x) → (∀ x ∈ inputs H b, P x) →
    (up H j a).take q = (up H j b).take q → a.take (q * 2 ^ j) = b.take (q * 2 ^ j)
  | 0, a, b, q, _, _, _, _, _, _, h => by simpa [up] using h
  | j + 1, a, b, q, ha, hb, h1, h2, hp, hq, h => by
    have e : q * 2 ^ (j + 1) = 2 * (q * 2 ^ j) := by rw [Nat.pow_succ, ← Nat.mul_assoc, Nat.mul_comm]
    rw [e] at ha hb ⊢
    refine take_level_inj H inj a b _ ha hb h1 h2 (fun x hx => hp x ((inputs_level H a x).2 (.inl hx))) (fun x hx => hq x ((inputs_level H b x).2 (.inl hx))) ?_
    exact up_take_inj hH inj j _ _ q (by rw [level_length]; omega) (by rw [level_length]; omega) (level_32 H hH a h1) (level_32 H hH b h2)
      (fun x hx => hp x ((inputs_level H a x).2 (.inr hx))) (fun x hx => hq x ((inputs_level H b x).2 (.inr hx))) h

end Fpki.MerkleLog
