import Verif.Model.Fetch
import Mathlib.Data.List.Basic
import Mathlib.Data.List.TakeWhile
import Mathlib.Data.List.Nodup
import Mathlib.Tactic.Linarith
import Mathlib.Tactic.Ring

/-!
# C25: the HTTP fetcher retrieves exactly the requested range; C26: the local fetcher ingests contiguous files; C27: its batcher loses nothing
-/
namespace Fpki.Fetch
variable {ε γ : Type}

/-! ## C25 -/

/-- `n` consecutive values from index `s`. -/
def slice (log : Nat → ε) (s n : Nat) : List ε := (List.range n).map (fun j => log (s + j))

/-- Every answer is an error or a prefix (maybe empty) of the requested entries of the log. -/
def Honest (log : Nat → ε) (srv : Server ε) : Prop :=
  ∀ q s e l, s ≤ e → srv q s e = some l → l.length ≤ e + 1 - s ∧ l = slice log s l.length

/-- Every answer is a non-empty prefix of the requested entries. -/
def Serves (log : Nat → ε) (srv : Server ε) : Prop :=
  ∀ q s e, s ≤ e → ∃ l, srv q s e = some l ∧ l ≠ [] ∧ l.length ≤ e + 1 - s ∧ l = slice log s l.length

theorem Serves.honest {log : Nat → ε} {srv : Server ε} (h : Serves log srv) : Honest log srv := by
  intro q s e l hse hl
  obtain ⟨l', h1, _, h2, h3⟩ := h q s e hse
  rw [h1] at hl
  cases hl
  exact ⟨h2, h3⟩

@[simp] theorem slice_length (log : Nat → ε) (s n : Nat) : (slice log s n).length = n := by simp [slice]

theorem slice_add (log : Nat → ε) (s a b : Nat) : slice log s (a + b) = slice log s a ++ slice log (s + a) b := by
  unfold slice
  rw [List.range_add, List.map_append, List.map_map]
  congr 1
  apply List.map_congr_left
  intro j _
  simp only [Function.comp]
  congr 1
  omega

theorem slice_take (log : Nat → ε) (s n k : Nat) (h : k ≤ n) : (slice log s n).take k = slice log s k := by
  obtain ⟨b, rfl⟩ := Nat.exists_eq_add_of_le h
  rw [slice_add, List.take_left' (by simp)]

theorem writeAt_len {α : Type} {buf l : List α} {off : Nat} (h : off + l.length ≤ buf.length) : (writeAt buf off l).length = buf.length := by
  unfold writeAt
  simp only [List.length_append, List.length_take, List.length_drop]
  omega

theorem writeAt_take {α : Type} {buf l : List α} {off : Nat} (h : off + l.length ≤ buf.length) :
    (writeAt buf off l).take (off + l.length) = buf.take off ++ l := by
  unfold writeAt
  rw [List.take_left' (by simp only [List.length_append, List.length_take]; omega)]

theorem getRawEntries_honest {log : Nat → ε} {srv : Server ε} (hh : Honest log srv) (start stop : Nat) : ∀ (fuel calls : Nat) (buf : List ε) (off : Nat),
    buf.length = stop + 1 - start → off ≤ buf.length → buf.take off = slice log start off →
    getRawEntries srv start stop fuel calls buf off ≠ .panic ∧
    ∀ b c, getRawEntries srv start stop fuel calls buf off = .ok b c → b = slice log start (stop + 1 - start) := by
  intro fuel
  induction fuel with
  | zero => intro calls buf off _ _ _; exact ⟨by simp [getRawEntries], fun b c h => by simp [getRawEntries] at h⟩
  | succ fuel ih =>
    intro calls buf off hl ho ht
    unfold getRawEntries
    by_cases hc : off < stop + 1 - start
    · rw [if_pos hc]
      cases hs : srv calls (start + off) stop with
      | none => exact ⟨by simp, fun b c h => by simp at h⟩
      | some l =>
        obtain ⟨h1, h2⟩ := hh _ _ _ _ (by omega) hs
        have h3 : off + l.length ≤ buf.length := by omega
        dsimp only
        rw [if_pos h3]
        refine ih _ _ _ (by rw [writeAt_len h3]; exact hl) (by rw [writeAt_len h3]; exact h3) ?_
        rw [writeAt_take h3, ht, slice_add, ← h2]
    · rw [if_neg hc]
      refine ⟨by simp, fun b c h => ?_⟩
      cases h
      rw [← ht.symm.trans (List.take_of_length_le (by omega))]
      congr 1
      omega

theorem getRawEntries_serves {log : Nat → ε} {srv : Server ε} (hh : Serves log srv) (start stop : Nat) : ∀ (fuel calls : Nat) (buf : List ε) (off : Nat),
    buf.length = stop + 1 - start → off ≤ buf.length → buf.length - off < fuel →
    ∃ b c, getRawEntries srv start stop fuel calls buf off = .ok b c := by
  intro fuel
  induction fuel with
  | zero => intro calls buf off _ _ h; omega
  | succ fuel ih =>
    intro calls buf off hl ho hf
    unfold getRawEntries
    by_cases hc : off < stop + 1 - start
    · rw [if_pos hc]
      obtain ⟨l, hs, hne, h1, _⟩ := hh calls (start + off) stop (by omega)
      have hpos := List.length_pos_iff.2 hne
      rw [hs]
      have h3 : off + l.length ≤ buf.length := by omega
      dsimp only
      rw [if_pos h3]
      exact ih _ _ _ (by rw [writeAt_len h3]; exact hl) (by rw [writeAt_len h3]; exact h3) (by rw [writeAt_len h3]; omega)
    · rw [if_neg hc]
      exact ⟨_, _, rfl⟩

theorem batchLoop_honest {log : Nat → ε} {srv : Server ε} (hh : Honest log srv) (sb : Nat) (hsb : 0 < sb) (fuel start : Nat) : ∀ (k i calls : Nat) (buf : List ε),
    (i + k) * sb ≤ buf.length → buf.take (i * sb) = slice log start (i * sb) →
    batchLoop srv sb fuel start k i calls buf ≠ .panic ∧ ∀ b c, batchLoop srv sb fuel start k i calls buf = .ok b c →
      b.length = buf.length ∧ b.take ((i + k) * sb) = slice log start ((i + k) * sb) := by
  intro k
  induction k with
  | zero =>
    intro i calls buf _ ht
    refine ⟨by simp [batchLoop], fun b c h => ?_⟩
    simp only [batchLoop, Out.ok.injEq] at h
    obtain ⟨rfl, rfl⟩ := h
    exact ⟨rfl, by simpa using ht⟩
  | succ k ih =>
    intro i calls buf hl ht
    have e1 : (i + (k + 1)) * sb = i * sb + k * sb + sb := by ring
    have hpl : ((buf.drop (i * sb)).take sb).length = start + i * sb + sb - 1 + 1 - (start + i * sb) := by
      rw [List.length_take, List.length_drop]
      omega
    obtain ⟨g1, g2⟩ := getRawEntries_honest hh (start + i * sb) (start + i * sb + sb - 1) fuel calls _ 0 hpl (by omega) (by simp [slice])
    unfold batchLoop
    cases hg : getRawEntries srv (start + i * sb) (start + i * sb + sb - 1) fuel calls ((buf.drop (i * sb)).take sb) 0 with
    | ok part calls' =>
      dsimp only
      have hp := g2 part calls' hg
      have hpl' : part.length = sb := by rw [hp, slice_length]; omega
      have hw : i * sb + part.length ≤ buf.length := by omega
      have := ih (i + 1) calls' (writeAt buf (i * sb) part) (by
          rw [writeAt_len hw]
          have : (i + 1 + k) * sb = i * sb + k * sb + sb := by ring
          omega) (by
        have e2 : (i + 1) * sb = i * sb + part.length := by rw [hpl']; ring
        rw [e2, writeAt_take hw, ht, slice_add, hp, slice_length])
      rw [writeAt_len hw] at this
      have e3 : i + 1 + k = i + (k + 1) := by omega
      rw [e3] at this
      exact this
    | err c => exact ⟨by simp, fun b c h => by simp at h⟩
    | panic => exact absurd hg g1
    | loop => exact ⟨by simp, fun b c h => by simp at h⟩

theorem batchLoop_serves {log : Nat → ε} {srv : Server ε} (hh : Serves log srv) (sb : Nat) (hsb : 0 < sb) (fuel start : Nat) (hf : sb < fuel) : ∀ (k i calls : Nat) (buf : List ε),
    (i + k) * sb ≤ buf.length → ∃ b c, batchLoop srv sb fuel start k i calls buf = .ok b c := by
  intro k
  induction k with
  | zero => intro i calls buf _; exact ⟨_, _, rfl⟩
  | succ k ih =>
    intro i calls buf hl
    have e1 : (i + (k + 1)) * sb = i * sb + k * sb + sb := by ring
    have hpl : ((buf.drop (i * sb)).take sb).length = start + i * sb + sb - 1 + 1 - (start + i * sb) := by
      rw [List.length_take, List.length_drop]
      omega
    obtain ⟨part, c, hg⟩ := getRawEntries_serves hh (start + i * sb) (start + i * sb + sb - 1) fuel calls _ 0 hpl (by omega) (by rw [hpl]; omega)
    unfold batchLoop
    rw [hg]
    have hp := (getRawEntries_honest hh.honest (start + i * sb) (start + i * sb + sb - 1) fuel calls _ 0 hpl (by omega) (by simp [slice])).2 part c hg
    have hpl' : part.length = sb := by rw [hp, slice_length]; omega
    have hw : i * sb + part.length ≤ buf.length := by omega
    exact ih (i + 1) c _ (by
      rw [writeAt_len hw]
      have : (i + 1 + k) * sb = i * sb + k * sb + sb := by ring
      omega)

theorem inBatches_honest {log : Nat → ε} {srv : Server ε} (hh : Honest log srv) (sb : Nat) (hsb : 0 < sb) (fuel calls : Nat) (buf : List ε) (start stop : Nat)
    (hl : stop + 1 - start ≤ buf.length) :
    getRawEntriesInBatches srv sb fuel calls buf start stop ≠ .panic ∧ ∀ b c, getRawEntriesInBatches srv sb fuel calls buf start stop = .ok b c →
      b.length = buf.length ∧ b.take (stop + 1 - start) = slice log start (stop + 1 - start) := by
  have hdiv := Nat.div_mul_le_self (stop + 1 - start) sb
  unfold getRawEntriesInBatches
  dsimp only
  obtain ⟨g1, g2⟩ := batchLoop_honest hh sb hsb fuel start ((stop + 1 - start) / sb) 0 calls buf (by rw [Nat.zero_add]; omega) (by simp [slice])
  generalize hq : (stop + 1 - start) / sb * sb = q at *
  cases hg : batchLoop srv sb fuel start ((stop + 1 - start) / sb) 0 calls buf with
  | ok b c =>
    dsimp only
    obtain ⟨h1, h2⟩ := g2 b c hg
    rw [Nat.zero_add, hq] at h2
    by_cases hr : stop ≥ q + start
    · rw [if_pos hr]
      have hpl : ((b.drop q).take (stop + 1 - start - q)).length = stop + 1 - (q + start) := by
        rw [List.length_take, List.length_drop]
        omega
      obtain ⟨r1, r2⟩ := getRawEntries_honest hh (q + start) stop fuel c _ 0 hpl (by omega) (by simp [slice])
      cases hx : getRawEntries srv (q + start) stop fuel c ((b.drop q).take (stop + 1 - start - q)) 0 with
      | ok part c' =>
        dsimp only
        have hp := r2 part c' hx
        have hpl' : part.length = stop + 1 - (q + start) := by rw [hp, slice_length]
        have hw : q + part.length ≤ b.length := by omega
        refine ⟨by simp, fun b' c'' h => ?_⟩
        cases h
        refine ⟨by rw [writeAt_len hw, h1], ?_⟩
        have e : stop + 1 - start = q + part.length := by omega
        rw [e, writeAt_take hw, h2, slice_add, hp, slice_length, Nat.add_comm q start]
      | err c => exact ⟨by simp, fun b c h => by simp at h⟩
      | panic => exact absurd hx r1
      | loop => exact ⟨by simp, fun b c h => by simp at h⟩
    · rw [if_neg hr]
      refine ⟨by simp, fun b' c' h => ?_⟩
      cases h
      have e : stop + 1 - start = q := by omega
      rw [e]
      exact ⟨h1, h2⟩
  | err c => exact ⟨by simp, fun b c h => by simp at h⟩
  | panic => exact absurd hg g1
  | loop => exact ⟨by simp, fun b c h => by simp at h⟩

theorem inBatches_serves {log : Nat → ε} {srv : Server ε} (hh : Serves log srv) (sb : Nat) (hsb : 0 < sb) (fuel calls : Nat) (hf : sb < fuel) (buf : List ε)
    (start stop : Nat) (hl : stop + 1 - start ≤ buf.length) : ∃ b c, getRawEntriesInBatches srv sb fuel calls buf start stop = .ok b c := by
  have hdiv := Nat.div_mul_le_self (stop + 1 - start) sb
  have hmod := Nat.div_add_mod (stop + 1 - start) sb
  have hlt := Nat.mod_lt (stop + 1 - start) hsb
  rw [Nat.mul_comm] at hmod
  unfold getRawEntriesInBatches
  dsimp only
  obtain ⟨b, c, hg⟩ := batchLoop_serves hh sb hsb fuel start hf ((stop + 1 - start) / sb) 0 calls buf (by rw [Nat.zero_add]; omega)
  have g2 := (batchLoop_honest hh.honest sb hsb fuel start ((stop + 1 - start) / sb) 0 calls buf (by rw [Nat.zero_add]; omega) (by simp [slice])).2 b c hg
  rw [hg]
  dsimp only
  generalize (stop + 1 - start) / sb * sb = q at *
  by_cases hr : stop ≥ q + start
  · rw [if_pos hr]
    have hpl : ((b.drop q).take (stop + 1 - start - q)).length = stop + 1 - (q + start) := by
      rw [List.length_take, List.length_drop]
      omega
    obtain ⟨p, c', hx⟩ := getRawEntries_serves hh (q + start) stop fuel c _ 0 hpl (by omega) (by rw [hpl]; omega)
    rw [hx]
    exact ⟨_, _, rfl⟩
  · rw [if_neg hr]
    exact ⟨_, _, rfl⟩

theorem mapM_map_some {α β : Type} (f : α → Option β) : ∀ (l : List α) (bs : List β), l.mapM f = some bs → bs.map some = l.map f
  | [], bs, h => by simp at h; subst h; rfl
  | a :: l, bs, h => by
    rw [List.mapM_cons] at h
    cases h1 : f a with
    | none => rw [h1] at h; cases h
    | some b =>
      cases h2 : l.mapM f with
      | none => rw [h1, h2] at h; cases h
      | some bs' =>
        rw [h1, h2] at h
        simp at h
        subst h
        simp [mapM_map_some f l bs' h2, h1]

theorem mapM_total {α β : Type} (f : α → Option β) : ∀ (l : List α), (∀ a ∈ l, (f a).isSome) → ∃ bs, l.mapM f = some bs
  | [], _ => ⟨[], by simp⟩
  | a :: l, h => by
    obtain ⟨bs, h1⟩ := mapM_total f l (fun a ha => h a (List.mem_cons_of_mem _ ha))
    obtain ⟨b, h2⟩ := Option.isSome_iff_exists.1 (h a List.mem_cons_self)
    exact ⟨b :: bs, by simp [List.mapM_cons, h1, h2]⟩

/-- What the consumer gets before the first error. -/
def delivered (results : List (Option (List γ))) : List γ := (results.filterMap (fun x => x)).flatten

theorem slice_map (log : Nat → ε) (f : ε → β) (s n : Nat) : (slice log s n).map f = slice (fun i => f (log i)) s n := by
  simp [slice]

theorem fetchLoop_honest {log : Nat → ε} {srv : Server ε} (hh : Honest log srv) (parse : ε → Option γ) (sb pb fuel start stop : Nat) (hsb : 0 < sb) (hpb : 0 < pb) :
    ∀ (k i calls : Nat) (buf : List ε), buf.length = pb → i + k = 1 + (stop - start) / pb → start ≤ stop →
    (fetchLoop srv parse sb pb fuel start stop k i calls buf).2 ≠ .panic ∧
    ∃ m, (delivered (fetchLoop srv parse sb pb fuel start stop k i calls buf).1).map some = slice (fun j => parse (log j)) (start + i * pb) m ∧
      (k ≠ 0 → start + i * pb + m ≤ stop + 1) ∧
      ((fetchLoop srv parse sb pb fuel start stop k i calls buf).2 = .done → none ∉ (fetchLoop srv parse sb pb fuel start stop k i calls buf).1 →
        k ≠ 0 → start + i * pb + m = stop + 1) ∧ (k = 0 → m = 0) ∧
      (∀ b, some b ∈ (fetchLoop srv parse sb pb fuel start stop k i calls buf).1 → 0 < b.length ∧ b.length ≤ pb) := by
  intro k
  induction k with
  | zero =>
    intro i calls buf _ _ _
    exact ⟨by simp [fetchLoop], 0, by simp [fetchLoop, delivered, slice], by simp, by simp, by simp, by simp [fetchLoop]⟩
  | succ k ih =>
    intro i calls buf hb hik hse
    have hidiv : i ≤ (stop - start) / pb := by omega
    have hile : i * pb ≤ stop - start := le_trans (Nat.mul_le_mul_right pb hidiv) (Nat.div_mul_le_self _ _)
    have hn : min stop (start + i * pb + pb - 1) + 1 - (start + i * pb) ≤ pb := by omega
    have hn0 : 0 < min stop (start + i * pb + pb - 1) + 1 - (start + i * pb) := by omega
    obtain ⟨g1, g2⟩ := inBatches_honest hh sb hsb fuel calls buf (start + i * pb) (min stop (start + i * pb + pb - 1)) (by omega)
    unfold fetchLoop
    dsimp only
    cases hg : getRawEntriesInBatches srv sb fuel calls buf (start + i * pb) (min stop (start + i * pb + pb - 1)) with
    | err c => exact ⟨by simp, 0, by simp [delivered, slice], by omega, by simp, by simp, by simp⟩
    | panic => exact absurd hg g1
    | loop => exact ⟨by simp, 0, by simp [delivered, slice], by omega, by simp, by simp, by simp⟩
    | ok b c =>
      dsimp only
      obtain ⟨h1, h2⟩ := g2 b c hg
      rw [h2]
      cases hm : (slice log (start + i * pb) (min stop (start + i * pb + pb - 1) + 1 - (start + i * pb))).mapM parse with
      | none => exact ⟨by simp, 0, by simp [delivered, slice], by omega, by simp, by simp, by simp⟩
      | some certs =>
        dsimp only
        have hcs := mapM_map_some parse _ certs hm
        have hcl : certs.length = min stop (start + i * pb + pb - 1) + 1 - (start + i * pb) := by
          have := congrArg List.length hcs
          simpa using this
        obtain ⟨i1, m, i2, i3, i4, i5, i6⟩ := ih (i + 1) c b (by omega) (by omega) hse
        have ei : (i + 1) * pb = i * pb + pb := by ring
        have hfull : k ≠ 0 → certs.length = pb := by
          intro hk
          have : i + 1 ≤ (stop - start) / pb := by omega
          have := le_trans (Nat.mul_le_mul_right pb this) (Nat.div_mul_le_self (stop - start) pb)
          omega
        have hlast : k = 0 → start + i * pb + certs.length = stop + 1 := by
          intro hk
          have h3 : (stop - start) / pb = i := by omega
          have h4 := Nat.lt_div_mul_add (a := stop - start) hpb
          rw [h3] at h4
          omega
        refine ⟨i1, certs.length + m, ?_, ?_, ?_, by omega, ?_⟩
        · simp only [delivered, List.filterMap_cons, List.flatten_cons, List.map_append]
          unfold delivered at i2
          rw [i2, hcs, slice_map, slice_add]
          congr 1
          · rw [hcl]
          · by_cases hk : k = 0
            · rw [i5 hk]
              simp [slice]
            · rw [hfull hk, ei, Nat.add_assoc]
        · intro _
          by_cases hk : k = 0
          · rw [i5 hk]
            have := hlast hk
            omega
          · have := i3 hk
            have := hfull hk
            omega
        · intro hd hno _
          by_cases hk : k = 0
          · rw [i5 hk]
            have := hlast hk
            omega
          · have h5 := i4 hd (fun h => hno (List.mem_cons_of_mem _ h)) hk
            have := hfull hk
            omega
        · intro b' hb'
          rcases List.mem_cons.1 hb' with h | h
          · cases h
            omega
          · exact i6 b' h

/-- C25 (safety): whatever an honest server answers (errors, short or empty answers), no panic happens and what is delivered before an error is the beginning of
the requested range, in order; if the fetch ends without an error it is all of it. Batches are neither empty nor too large. -/
theorem C25_never_wrong {log : Nat → ε} {srv : Server ε} (hh : Honest log srv) (parse : ε → Option γ) (zero : ε) (sb pb fuel start stop : Nat) (hsb : 0 < sb)
    (hpb : 0 < pb) (hse : start ≤ stop) :
    (fetch srv parse zero sb pb fuel start stop).2 ≠ .panic ∧
    ∃ m, (delivered (fetch srv parse zero sb pb fuel start stop).1).map some = slice (fun i => parse (log i)) start m ∧ m ≤ stop + 1 - start ∧
      ((fetch srv parse zero sb pb fuel start stop).2 = .done → none ∉ (fetch srv parse zero sb pb fuel start stop).1 → m = stop + 1 - start) ∧
      ∀ b, some b ∈ (fetch srv parse zero sb pb fuel start stop).1 → 0 < b.length ∧ b.length ≤ pb := by
  unfold fetch
  rw [if_neg (by omega)]
  obtain ⟨h1, m, h2, h3, h4, _, h6⟩ := fetchLoop_honest hh parse sb pb fuel start stop hsb hpb (1 + (stop - start) / pb) 0 0 (List.replicate pb zero)
    (by simp) (by omega) hse
  rw [Nat.zero_mul, Nat.add_zero] at h2 h3 h4
  refine ⟨h1, m, h2, ?_, ?_, h6⟩
  · have := h3 (by rw [Nat.add_comm]; exact Nat.succ_ne_zero _)
    omega
  · intro a b
    have := h4 a b (by rw [Nat.add_comm]; exact Nat.succ_ne_zero _)
    omega

theorem fetchLoop_serves {log : Nat → ε} {srv : Server ε} (hh : Serves log srv) (parse : ε → Option γ) (sb pb fuel start stop : Nat) (hsb : 0 < sb) (hpb : 0 < pb)
    (hf : sb < fuel) (hse : start ≤ stop) (hp : ∀ i, start ≤ i → i ≤ stop → (parse (log i)).isSome) : ∀ (k i calls : Nat) (buf : List ε), buf.length = pb →
    i + k = 1 + (stop - start) / pb →
    (fetchLoop srv parse sb pb fuel start stop k i calls buf).2 = .done ∧ none ∉ (fetchLoop srv parse sb pb fuel start stop k i calls buf).1 := by
  intro k
  induction k with
  | zero => intro i calls buf _ _; simp [fetchLoop]
  | succ k ih =>
    intro i calls buf hb hik
    have hidiv : i ≤ (stop - start) / pb := by omega
    have hile : i * pb ≤ stop - start := le_trans (Nat.mul_le_mul_right pb hidiv) (Nat.div_mul_le_self _ _)
    obtain ⟨b, c, hg⟩ := inBatches_serves hh sb hsb fuel calls hf buf (start + i * pb) (min stop (start + i * pb + pb - 1)) (by omega)
    obtain ⟨h1, h2⟩ := (inBatches_honest hh.honest sb hsb fuel calls buf (start + i * pb) (min stop (start + i * pb + pb - 1)) (by omega)).2 b c hg
    unfold fetchLoop
    dsimp only
    rw [hg]
    dsimp only
    rw [h2]
    obtain ⟨certs, hm⟩ := mapM_total parse (slice log (start + i * pb) (min stop (start + i * pb + pb - 1) + 1 - (start + i * pb))) (by
      intro a ha
      unfold slice at ha
      obtain ⟨j, hj, rfl⟩ := List.mem_map.1 ha
      have := List.mem_range.1 hj
      exact hp _ (by omega) (by omega))
    rw [hm]
    dsimp only
    obtain ⟨i1, i2⟩ := ih (i + 1) c b (by omega) (by omega)
    exact ⟨i1, by simp [i2]⟩

/-- C25: for every server that answers each query with a non-empty prefix of the requested entries, fetching `[start, stop]` ends without an
error and delivers exactly the entries `start..stop`, in order, in batches of at most the process batch size. -/
theorem C25_exact_range {log : Nat → ε} {srv : Server ε} (hh : Serves log srv) (parse : ε → Option γ) (cert : Nat → γ) (zero : ε)
    (sb pb fuel start stop : Nat) (hsb : 0 < sb) (hpb : 0 < pb) (hf : sb < fuel) (hse : start ≤ stop)
    (hp : ∀ i, start ≤ i → i ≤ stop → parse (log i) = some (cert i)) :
    (fetch srv parse zero sb pb fuel start stop).2 = .done ∧ none ∉ (fetch srv parse zero sb pb fuel start stop).1 ∧
    delivered (fetch srv parse zero sb pb fuel start stop).1 = (List.range (stop + 1 - start)).map (fun j => cert (start + j)) ∧
    ∀ b, some b ∈ (fetch srv parse zero sb pb fuel start stop).1 → 0 < b.length ∧ b.length ≤ pb := by
  obtain ⟨_, m, h2, h3, h4, h5⟩ := C25_never_wrong hh.honest parse zero sb pb fuel start stop hsb hpb hse
  have hd : (fetch srv parse zero sb pb fuel start stop).2 = .done ∧ none ∉ (fetch srv parse zero sb pb fuel start stop).1 := by
    unfold fetch
    rw [if_neg (by omega)]
    exact fetchLoop_serves hh parse sb pb fuel start stop hsb hpb hf hse (fun i h h' => by rw [hp i h h']; rfl) _ 0 0 _ (by simp) (by omega)
  have hm := h4 hd.1 hd.2
  subst hm
  refine ⟨hd.1, hd.2, ?_, h5⟩
  have : (delivered (fetch srv parse zero sb pb fuel start stop).1).map some = ((List.range (stop + 1 - start)).map (fun j => cert (start + j))).map some := by
    rw [h2]
    unfold slice
    rw [List.map_map]
    apply List.map_congr_left
    intro j hj
    have := List.mem_range.1 hj
    exact hp _ (by omega) (by omega)
  exact List.map_injective_iff.2 (Option.some_injective _) this

/-- Nothing to fetch. -/
theorem C25_empty_range (srv : Server ε) (parse : ε → Option γ) (zero : ε) (sb pb fuel start stop : Nat) (h : stop < start) :
    fetch srv parse zero sb pb fuel start stop = ([], .done) := by
  unfold fetch
  rw [if_pos h]

/-- Without the condition that answers are not empty the fetcher never ends: a server that answers with an empty list is asked again for ever, without
a pause or an error. -/
theorem C25_empty_answers_loop (srv : Server ε) (h : ∀ q s e, srv q s e = some []) (start stop calls : Nat) (hse : start ≤ stop) (buf : List ε) (fuel : Nat) :
    getRawEntries srv start stop fuel calls buf 0 = .loop := by
  induction fuel generalizing calls buf with
  | zero => rfl
  | succ fuel ih =>
    unfold getRawEntries
    rw [if_pos (by omega), h]
    dsimp only
    rw [if_pos (by simp)]
    exact ih _ _

/-- A server that answers two entries at a time, or one. -/
def exServer : Server Nat := fun q s e => some ((List.range (min (e + 1 - s) (1 + q % 2))).map (fun j => 100 + (s + j)))

example : Serves (fun i => 100 + i) exServer := by
  intro q s e hse
  refine ⟨_, rfl, ?_, by simp, by simp [slice]⟩
  intro h
  have := congrArg List.length h
  simp at this
  omega

example : fetch exServer (fun e => some e) 0 3 5 4 7 14 = ([some [107, 108, 109, 110, 111], some [112, 113, 114]], .done) := by decide

/-! ## C26 -/

/-- The files of `l` cover consecutive ranges, the first of which starts at `s`. -/
def Chain (files : List File) : Int → List File → Prop
  | _, [] => True
  | s, f :: fs => f ∈ files ∧ f.start = s ∧ Chain files (f.stop + 1) fs

/-- The first index after the files. -/
def endOf : Int → List File → Int
  | s, [] => s
  | _, f :: fs => endOf (f.stop + 1) fs

theorem chain_append {files : List File} : ∀ {s : Int} {a b : List File}, Chain files s (a ++ b) ↔ Chain files s a ∧ Chain files (endOf s a) b
  | s, [], b => by simp [Chain, endOf]
  | s, f :: a, b => by simp [Chain, endOf, chain_append (a := a), and_assoc]

theorem endOf_append : ∀ {s : Int} {a b : List File}, endOf s (a ++ b) = endOf (endOf s a) b
  | s, [], b => rfl
  | s, f :: a, b => by simp [endOf, endOf_append (a := a)]

theorem endOf_getLast? : ∀ {s : Int} {a : List File} {f : File}, a.getLast? = some f → endOf s a = f.stop + 1
  | s, [g], f, h => by
    simp at h
    subst h
    rfl
  | s, g :: h :: a, f, e => by
    rw [List.getLast?_cons_cons] at e
    exact endOf_getLast? (s := g.stop + 1) (a := h :: a) e

/-- The ranges are not empty. -/
def Ordered (files : List File) : Prop := ∀ f ∈ files, f.start ≤ f.stop

theorem chain_lt {files : List File} (ho : Ordered files) : ∀ {s : Int} {l : List File}, Chain files s l → s + l.length ≤ endOf s l
  | s, [], _ => by simp [endOf]
  | s, f :: fs, h => by
    have h1 := ho f h.1
    have h2 := chain_lt ho h.2.2
    have := h.2.1
    simp only [endOf, List.length_cons]
    push_cast
    omega

/-- What the map holds at any moment while it is filled. -/
structure Good (files : List File) (m : StateMap) : Prop where
  dom : ∀ s, m s = none ↔ ∀ f ∈ files, f.start ≠ s
  val : ∀ s l, m s = some l → l ≠ [] ∧ Chain files s l

/-- No file continues the chain. -/
def Maximal (files : List File) (s : Int) (l : List File) : Prop := ∀ f ∈ files, f.start ≠ endOf s l

theorem countP_lt {p q : α → Bool} : ∀ {l : List α} {x : α}, x ∈ l → p x = false → q x = true → (∀ y ∈ l, p y = true → q y = true) → l.countP p < l.countP q
  | y :: l, x, hx, hp, hq, hi => by
    have hl : l.countP p ≤ l.countP q := List.countP_mono_left (fun z hz => hi z (by simp [hz]))
    rcases List.mem_cons.1 hx with h | h
    · subst h
      rw [List.countP_cons_of_neg (by simp [hp]), List.countP_cons_of_pos (by simp [hq])]
      omega
    · have := countP_lt h hp hq (fun z hz => hi z (by simp [hz]))
      have hy := hi y (by simp)
      rw [List.countP_cons, List.countP_cons]
      by_cases h1 : p y = true
      · rw [if_pos h1, if_pos (hy h1)]
        omega
      · rw [if_neg h1]
        split <;> omega

theorem getGzFileChain_spec {files : List File} (ho : Ordered files) {m : StateMap} (hg : Good files m) : ∀ (fuel : Nat) (s : Int),
    files.countP (fun f => decide (s ≤ f.start)) < fuel →
    ∃ l, getGzFileChain m fuel s = some l ∧ Chain files s l ∧ Maximal files s l ∧ (m s ≠ none → l ≠ [])
  | 0, _, h => by omega
  | fuel + 1, s, h => by
    unfold getGzFileChain
    cases hm : m s with
    | none => exact ⟨[], rfl, trivial, (hg.dom s).1 hm, fun h => absurd rfl h⟩
    | some e =>
      obtain ⟨h1, h2⟩ := hg.val s e hm
      cases hl : e.getLast? with
      | none => exact absurd (List.getLast?_eq_none_iff.1 hl) h1
      | some f =>
        have he := endOf_getLast? (s := s) hl
        have hlt : s < f.stop + 1 := by
          have := chain_lt ho h2
          have : 0 < e.length := List.length_pos_iff.2 h1
          omega
        have hf : files.countP (fun g => decide (f.stop + 1 ≤ g.start)) < files.countP (fun f => decide (s ≤ f.start)) := by
          cases e with
          | nil => exact absurd rfl h1
          | cons g gs =>
            apply countP_lt h2.1
            · have := h2.2.1
              simp
              omega
            · have := h2.2.1
              simp
              omega
            · intro y _ hy
              simp at hy ⊢
              omega
        obtain ⟨l, h3, h4, h5, _⟩ := getGzFileChain_spec ho hg fuel (f.stop + 1) (by omega)
        refine ⟨e ++ l, by simp [h3, hl], chain_append.2 ⟨h2, by rw [he]; exact h4⟩, ?_, fun _ hn => h1 (List.append_eq_nil_iff.1 hn).1⟩
        intro g hgm
        rw [endOf_append, he]
        exact h5 g hgm

theorem extendAll_spec {files : List File} (ho : Ordered files) (fuel : Nat) (hf : files.length < fuel) : ∀ (order : List Int) (m : StateMap), Good files m →
    (∀ s ∈ order, m s ≠ none) →
    ∃ m', extendAll fuel order m = some m' ∧ Good files m' ∧ (∀ s, (s ∈ order ∨ ∀ l, m s = some l → Maximal files s l) → ∀ l, m' s = some l → Maximal files s l)
  | [], m, hg, _ => ⟨m, rfl, hg, fun s h l hl => h.elim (by simp) (fun h => h l hl)⟩
  | s :: order, m, hg, hk => by
    obtain ⟨l, h1, h2, h3, h4⟩ := getGzFileChain_spec ho hg fuel s (Nat.lt_of_le_of_lt List.countP_le_length hf)
    have hs := hk s (by simp)
    have hg' : Good files (fun s' => if s' = s then some l else m s') := by
      constructor
      · intro s'
        by_cases h : s' = s
        · rw [if_pos h, h]
          rw [← hg.dom s]
          simp [hs]
        · rw [if_neg h]
          exact hg.dom s'
      · intro s' l' hl'
        by_cases h : s' = s
        · rw [if_pos h] at hl'
          cases hl'
          rw [h]
          exact ⟨h4 hs, h2⟩
        · rw [if_neg h] at hl'
          exact hg.val s' l' hl'
    obtain ⟨m', h5, h6, h7⟩ := extendAll_spec ho fuel hf order _ hg' (by
      intro s' hs'
      split
      · simp
      · exact hk s' (by simp [hs']))
    refine ⟨m', by unfold extendAll; rw [h1]; exact h5, h6, ?_⟩
    intro s' hs' l' hl'
    refine h7 s' ?_ l' hl'
    by_cases h : s' = s
    · right
      intro l'' hl''
      rw [if_pos h] at hl''
      cases hl''
      rw [h]
      exact h3
    · rcases hs' with hs' | hs'
      · rcases List.mem_cons.1 hs' with hs' | hs'
        · exact absurd hs' h
        · exact Or.inl hs'
      · right
        intro l'' hl''
        rw [if_neg h] at hl''
        exact hs' l'' hl''

theorem singles_spec : ∀ (fs pre : List File) (m : StateMap), ((pre ++ fs).map File.start).Nodup → Good pre m →
    ∃ m', singles fs m = some m' ∧ Good (pre ++ fs) m'
  | [], pre, m, _, hg => ⟨m, rfl, by simpa using hg⟩
  | f :: fs, pre, m, hn, hg => by
    have hf : ∀ g ∈ pre, g.start ≠ f.start := by
      intro g hgm he
      rw [List.map_append, List.nodup_append] at hn
      exact hn.2.2 g.start (List.mem_map_of_mem hgm) f.start (by simp) he
    have hnone := (hg.dom f.start).2 hf
    have hg' : Good (pre ++ [f]) (fun s => if s = f.start then some [f] else m s) := by
      have mono : ∀ {s : Int} {l : List File}, Chain pre s l → Chain (pre ++ [f]) s l := by
        intro s l
        induction l generalizing s with
        | nil => intro _; trivial
        | cons g gs ih => intro h; exact ⟨by simp [h.1], h.2.1, ih h.2.2⟩
      constructor
      · intro s
        by_cases h : s = f.start
        · rw [if_pos h]
          simp [h]
        · rw [if_neg h, hg.dom s]
          constructor
          · intro h1 g hg1
            rcases List.mem_append.1 hg1 with h2 | h2
            · exact h1 g h2
            · rw [List.mem_singleton.1 h2]
              exact fun e => h e.symm
          · intro h1 g hg1
            exact h1 g (by simp [hg1])
      · intro s l hl
        by_cases h : s = f.start
        · rw [if_pos h] at hl
          cases hl
          exact ⟨by simp, by simp, h.symm, trivial⟩
        · rw [if_neg h] at hl
          exact ⟨(hg.val s l hl).1, mono (hg.val s l hl).2⟩
    obtain ⟨m', h1, h2⟩ := singles_spec fs (pre ++ [f]) _ (by simpa using hn) hg'
    refine ⟨m', ?_, by simpa using h2⟩
    unfold singles
    rw [if_neg (by simp [hnone])]
    exact h1

/-- The files of a maximal chain are determined by where it starts. -/
theorem C26_chain_unique {files : List File} (hn : (files.map File.start).Nodup) : ∀ {s : Int} {l l' : List File}, Chain files s l → Chain files s l' →
    Maximal files s l → Maximal files s l' → l = l'
  | s, [], [], _, _, _, _ => rfl
  | s, [], f :: l', _, h2, h3, _ => absurd h2.2.1 (h3 f h2.1)
  | s, f :: l, [], h1, _, _, h4 => absurd h1.2.1 (h4 f h1.1)
  | s, f :: l, g :: l', h1, h2, h3, h4 => by
    have : f = g := List.inj_on_of_nodup_map hn h1.1 h2.1 (h1.2.1.trans h2.2.1.symm)
    subst this
    rw [C26_chain_unique hn h1.2.2 h2.2.2 h3 h4]

/-- Initialising the local fetcher: if no two files start at the same index and no range is empty then, in whatever order the map is visited, it ends,
and the map holds for each start of a file the whole chain of files from there, and nothing else. -/
theorem C26_initialize {files : List File} (hn : (files.map File.start).Nodup) (ho : Ordered files) (order : List Int)
    (hord : ∀ s, s ∈ order ↔ ∃ f ∈ files, f.start = s) (fuel : Nat) (hf : files.length < fuel) :
    ∃ m, initMap files order fuel = some m ∧ (∀ s, m s = none ↔ ∀ f ∈ files, f.start ≠ s) ∧
      ∀ s l, m s = some l → l ≠ [] ∧ Chain files s l ∧ Maximal files s l := by
  obtain ⟨m, h1, h2⟩ := singles_spec files [] (fun _ => none) (by simpa using hn) ⟨by simp, by simp⟩
  rw [List.nil_append] at h2
  have hkey : ∀ s ∈ order, m s ≠ none := by
    intro s hs hm
    obtain ⟨f, h3, h4⟩ := (hord s).1 hs
    exact (h2.dom s).1 hm f h3 h4
  obtain ⟨m', h3, h4, h5⟩ := extendAll_spec ho fuel hf order m h2 hkey
  refine ⟨m', by unfold initMap; rw [h1]; exact h3, h4.dom, fun s l hl => ⟨(h4.val s l hl).1, (h4.val s l hl).2, h5 s (Or.inl ?_) l hl⟩⟩
  by_contra hs
  have : m' s = none := by
    rw [h4.dom]
    intro f hf' he
    exact hs ((hord s).2 ⟨f, hf', he⟩)
  rw [this] at hl
  cases hl

/-- Two files that start at the same index are refused. -/
theorem C26_duplicate_refused (files : List File) (hn : ¬ (files.map File.start).Nodup) (order : List Int) (fuel : Nat) : initMap files order fuel = none := by
  have : ∀ (fs : List File) (m : StateMap), (¬ (fs.map File.start).Nodup ∨ ∃ f ∈ fs, (m f.start).isSome) → singles fs m = none := by
    intro fs
    induction fs with
    | nil => intro m h; simp at h
    | cons f fs ih =>
      intro m h
      unfold singles
      by_cases hm : (m f.start).isSome = true
      · rw [if_pos hm]
      · rw [if_neg hm]
        apply ih
        rcases h with h | ⟨g, h1, h2⟩
        · rw [List.map_cons, List.nodup_cons] at h
          by_cases h3 : f.start ∈ fs.map File.start
          · obtain ⟨g, h4, h5⟩ := List.mem_map.1 h3
            exact Or.inr ⟨g, h4, by simp [h5]⟩
          · exact Or.inl (fun h4 => h ⟨h3, h4⟩)
        · rcases List.mem_cons.1 h1 with h3 | h3
          · rw [h3] at h2
            exact absurd h2 hm
          · refine Or.inr ⟨g, h3, ?_⟩
            split
            · rfl
            · exact h2
  unfold initMap
  rw [this files _ (Or.inl hn)]
  rfl

theorem targetLoop_true (last max : Int) : ∀ (l : List File) (t : Int), ∃ a b, l = a ++ b ∧ targetLoop last max true l t = endOf t a ∧
    (∀ f ∈ a, f.stop - last + 1 ≤ max) ∧ ∀ f ∈ b.head?, f.stop - last + 1 > max
  | [], t => ⟨[], [], rfl, rfl, by simp, by simp⟩
  | f :: l, t => by
    unfold targetLoop
    by_cases h : f.stop - last + 1 > max
    · rw [if_pos (by simp [h])]
      exact ⟨[], f :: l, rfl, rfl, by simp, by simpa using h⟩
    · rw [if_neg (by simp only [Bool.true_and, decide_eq_true_eq]; exact h)]
      obtain ⟨a, b, h1, h2, h3, h4⟩ := targetLoop_true last max l (f.stop + 1)
      refine ⟨f :: a, b, by rw [h1]; rfl, h2, ?_, h4⟩
      intro g hg
      rcases List.mem_cons.1 hg with h5 | h5
      · rw [h5]; omega
      · exact h3 g h5

theorem takeWhile_prefix {files : List File} (ho : Ordered files) : ∀ {s : Int} {a b : List File}, Chain files s a → (∀ f ∈ b.head?, f ∈ files ∧ f.start = endOf s a) →
    ∀ t, t = endOf s a → (a ++ b).takeWhile (fun f => !decide (f.stop > t - 1)) = a
  | s, [], [], _, _, _, _ => rfl
  | s, [], f :: b, _, hb, t, ht => by
    obtain ⟨h1, h2⟩ := hb f (by simp)
    have := ho f h1
    simp only [endOf] at h2 ht
    rw [List.nil_append, List.takeWhile_cons, if_neg]
    simp
    omega
  | s, f :: a, b, ha, hb, t, ht => by
    have h1 := chain_lt ho ha.2.2
    simp only [endOf] at ht hb
    rw [List.cons_append, List.takeWhile_cons, if_pos, takeWhile_prefix ho ha.2.2 hb t ht]
    simp
    omega

/-- The target that is returned when some file starts at the last index: it is reached by a contiguous chain of at least one file, all but the first of which end
within the limit; fetching up to the target opens exactly these files; and the chain could not be longer. -/
theorem C26_target {files : List File} (hn : (files.map File.start).Nodup) (ho : Ordered files) (order : List Int)
    (hord : ∀ s, s ∈ order ↔ ∃ f ∈ files, f.start = s) (fuel : Nat) (hf : files.length < fuel) (m : StateMap) (hm : initMap files order fuel = some m)
    (max last : Int) (hl : ∃ f ∈ files, f.start = last) :
    ∃ l, l ≠ [] ∧ Chain files last l ∧ getCurrentState m max last = endOf last l ∧ requestedFiles m last (getCurrentState m max last - 1) = l ∧
      (∀ f ∈ l.tail, f.stop - last + 1 ≤ max) ∧
      ∀ f ∈ files, f.start = getCurrentState m max last → f.stop - last + 1 > max := by
  obtain ⟨m', h1, h2, h3⟩ := C26_initialize hn ho order hord fuel hf
  rw [hm] at h1
  cases h1
  cases he : m last with
  | none =>
    obtain ⟨f, h4, h5⟩ := hl
    exact absurd h5 ((h2 last).1 he f h4)
  | some l =>
    obtain ⟨h4, h5, h6⟩ := h3 last l he
    cases l with
    | nil => exact absurd rfl h4
    | cons f l =>
      obtain ⟨a, b, h7, h8, h9, h10⟩ := targetLoop_true last max l (f.stop + 1)
      have hc : getCurrentState m max last = endOf last (f :: a) := by
        unfold getCurrentState
        rw [he]
        dsimp only
        unfold targetLoop
        rw [if_neg (by simp)]
        exact h8
      have hb : ∀ g ∈ b.head?, g ∈ files ∧ g.start = endOf last (f :: a) := by
        intro g hg
        cases b with
        | nil => cases hg
        | cons g' b =>
          cases hg
          have h5' := h5.2.2
          rw [h7, chain_append] at h5'
          exact ⟨h5'.2.1, h5'.2.2.1⟩
      have hca : Chain files last (f :: a) := by
        have h5' := h5.2.2
        rw [h7, chain_append] at h5'
        exact ⟨h5.1, h5.2.1, h5'.1⟩
      refine ⟨f :: a, by simp, hca, hc, ?_, h9, ?_⟩
      · unfold requestedFiles
        rw [he, hc]
        simp only [Option.getD_some]
        rw [h7]
        exact takeWhile_prefix ho hca hb _ rfl
      · intro g hg hgs
        rw [hc] at hgs
        cases b with
        | nil =>
          rw [List.append_nil] at h7
          subst h7
          exact absurd hgs (h6 g hg)
        | cons g' b =>
          have h11 := hb g' (by simp)
          have : g = g' := List.inj_on_of_nodup_map hn hg h11.1 (hgs.trans h11.2.symm)
          rw [this]
          exact h10 g' (by simp)

/-- If no file starts there the state does not change, and nothing is opened. -/
theorem C26_nothing_new {files : List File} (hn : (files.map File.start).Nodup) (ho : Ordered files) (order : List Int)
    (hord : ∀ s, s ∈ order ↔ ∃ f ∈ files, f.start = s) (fuel : Nat) (hf : files.length < fuel) (m : StateMap) (hm : initMap files order fuel = some m)
    (max last stop : Int) (hl : ∀ f ∈ files, f.start ≠ last) :
    getCurrentState m max last = last ∧ requestedFiles m last stop = [] := by
  obtain ⟨m', h1, h2, h3⟩ := C26_initialize hn ho order hord fuel hf
  rw [hm] at h1
  cases h1
  have he := (h2 last).2 hl
  unfold getCurrentState requestedFiles
  rw [he]
  exact ⟨rfl, rfl⟩

/-- The condition that ranges are not empty is needed, and nothing checks it: with a file named e.g. `5-4.csv` initialising never ends (in the code: the stack
overflows). -/
theorem C26_inverted_range_violated (f : File) (h : f.start = f.stop + 1) (fuel : Nat) : initMap [f] [f.start] fuel = none := by
  have : ∀ fuel, getGzFileChain (fun s => if s = f.start then some [f] else none) fuel f.start = none := by
    intro fuel
    induction fuel with
    | zero => rfl
    | succ n ih =>
      unfold getGzFileChain
      rw [if_pos rfl]
      simp only [List.getLast?_singleton]
      rw [← h, ih]
      rfl
  unfold initMap singles singles
  simp only [Option.isSome_none, Bool.false_eq_true, if_false, Option.bind_some]
  unfold extendAll
  rw [this]

/-- Files `0-9`, `10-19`, `20-24`, `40-49`. -/
def exFiles : List File := [⟨[1], 10, 19⟩, ⟨[2], 40, 49⟩, ⟨[3], 0, 9⟩, ⟨[4], 20, 24⟩]

example : (exFiles.map File.start).Nodup ∧ Ordered exFiles ∧ (∀ s, s ∈ [(20 : Int), 0, 10, 40] ↔ ∃ f ∈ exFiles, f.start = s) := by
  refine ⟨by decide, by unfold Ordered exFiles; decide, ?_⟩
  intro s
  simp [exFiles]
  omega

example : ((initMap exFiles [20, 0, 10, 40] 5).map (fun m => (getCurrentState m 20 0, requestedFiles m 0 19, getCurrentState m 1 0, getCurrentState m 100 0,
    getCurrentState m 100 5))) = some (20, [⟨[3], 0, 9⟩, ⟨[1], 10, 19⟩], 10, 25, 5) := by decide

/-! ## C27: the batcher of the local fetcher -/

/-- The certificates of the rows that have not expired. -/
def certsOf (rows : List (Row γ)) : List γ := rows.filterMap id

/-- The number of expired rows. -/
def expiredOf (rows : List (Row γ)) : Nat := rows.countP Option.isNone

theorem localBatches_spec (pb : Nat) (hpb : 0 < pb) : ∀ (rows : List (Row γ)) (size : Nat) (r : Result γ), size < pb → r.certs.length + r.expired = size →
    (localBatches pb size r rows).flatMap Result.certs = r.certs ++ certsOf rows ∧
    ((localBatches pb size r rows).map Result.expired).sum = r.expired + expiredOf rows ∧
    ∀ b ∈ localBatches pb size r rows, 0 < b.certs.length + b.expired ∧ b.certs.length + b.expired ≤ pb ∧ (b.certs.length + b.expired = pb ∨ (localBatches pb size r rows).getLast? = some b)
  | [], size, r, hs, hr => by
    unfold localBatches
    by_cases h : size > 0
    · rw [if_pos h]
      simp [certsOf, expiredOf]
      omega
    · rw [if_neg h]
      have h1 : r.certs = [] := List.length_eq_zero_iff.1 (by omega)
      simp [certsOf, expiredOf, h1]
      omega
  | x :: rows, size, r, hs, hr => by
    unfold localBatches
    have hadd : (r.add x).certs = r.certs ++ certsOf [x] ∧ (r.add x).expired = r.expired + expiredOf [x] ∧ (r.add x).certs.length + (r.add x).expired = size + 1 := by
      cases x <;> simp [Result.add, certsOf, expiredOf] <;> omega
    have hc : certsOf (x :: rows) = certsOf [x] ++ certsOf rows := by
      unfold certsOf
      rw [← List.filterMap_append]
      rfl
    have he : expiredOf (x :: rows) = expiredOf [x] + expiredOf rows := by
      unfold expiredOf
      rw [← List.countP_append]
      rfl
    by_cases h : size + 1 ≥ pb
    · rw [if_pos h]
      obtain ⟨h1, h2, h3⟩ := localBatches_spec pb hpb rows 0 ⟨[], 0⟩ hpb rfl
      refine ⟨by rw [List.flatMap_cons, h1, hadd.1, hc]; simp, by rw [List.map_cons, List.sum_cons, h2, hadd.2.1, he]; simp only []; omega, ?_⟩
      intro b hb
      rcases List.mem_cons.1 hb with h4 | h4
      · rw [h4, hadd.2.2]
        omega
      · obtain ⟨h5, h6, h7⟩ := h3 b h4
        refine ⟨h5, h6, h7.imp_right (fun h8 => ?_)⟩
        rw [List.getLast?_cons, h8]
        rfl
    · rw [if_neg h]
      obtain ⟨h1, h2, h3⟩ := localBatches_spec pb hpb rows (size + 1) (r.add x) (by omega) hadd.2.2
      exact ⟨by rw [h1, hadd.1, hc, List.append_assoc], by rw [h2, hadd.2.1, he]; omega, h3⟩

/-- The batcher of the local fetcher: the certificates of the batches are those of the rows that have not expired, in order; the expired rows are all counted;
no batch is empty or larger than the batch size, and only the last may be smaller. -/
theorem C27_local_batches (pb : Nat) (hpb : 0 < pb) (rows : List (Row γ)) :
    (localBatches pb 0 ⟨[], 0⟩ rows).flatMap Result.certs = certsOf rows ∧
    ((localBatches pb 0 ⟨[], 0⟩ rows).map Result.expired).sum = expiredOf rows ∧
    ∀ b ∈ localBatches pb 0 ⟨[], 0⟩ rows, 0 < b.certs.length + b.expired ∧ b.certs.length + b.expired ≤ pb ∧
      (b.certs.length + b.expired = pb ∨ (localBatches pb 0 ⟨[], 0⟩ rows).getLast? = some b) := by
  obtain ⟨h1, h2, h3⟩ := localBatches_spec pb hpb rows 0 ⟨[], 0⟩ hpb rfl
  exact ⟨by simpa using h1, by simpa using h2, h3⟩

example : (localBatches 2 0 ⟨[], 0⟩ [some 1, none, some 2, some 3, some 4]).map (fun r => (r.certs, r.expired)) = [([1], 1), ([2, 3], 0), ([4], 0)] := by decide

end Fpki.Fetch
