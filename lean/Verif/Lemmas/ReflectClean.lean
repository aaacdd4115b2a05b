import Verif.Lemmas.Reflect
import Verif.Lemmas.JsonUtf8
import Verif.Lemmas.Bytes
/-! What is read from a text has nothing that would be lost in another text. -/
namespace Fpki.Reflect

open Fpki.Json Fpki.Config Fpki.Calendar
open Fpki.Policy (Time fixUtf8 ValidUtf8)

mutual
/-- Strings are UTF-8, the keys of maps are in order, times are as they are shown. -/
def Clean : Shape → V → Prop
  | .str, .str s => fixUtf8 s = s
  | .time, .time t => t.norm = t
  | .slice s, .slice l => ∀ v ∈ l, Clean s v
  | .ptr s, .ptr v => Clean s v
  | .map s, .map l => l.Pairwise (fun p q => bytesLt p.1 q.1 = true) ∧ ∀ p ∈ l, fixUtf8 p.1 = p.1 ∧ Clean s p.2
  | .struct fs, .struct vs => Cleans fs vs
  | _, _ => True

def Cleans : List (Bytes × Bool × Shape) → List V → Prop
  | (_, _, s) :: fs, v :: vs => Clean s v ∧ Cleans fs vs
  | _, _ => True
end

mutual
/-- No field has `omitempty`. -/
def noOmit : Shape → Bool
  | .slice s => noOmit s
  | .ptr s => noOmit s
  | .map s => noOmit s
  | .struct fs => noOmits fs
  | _ => true

def noOmits : List (Bytes × Bool × Shape) → Bool
  | [] => true
  | (_, om, s) :: fs => !om && noOmit s && noOmits fs
end

/-- Entries in order stay as they are. -/
theorem put_last (k : Bytes) (v : V) : ∀ m : List (Bytes × V), (∀ p ∈ m, bytesLt p.1 k = true) → putEntry k v m = m ++ [(k, v)]
  | [], _ => rfl
  | (k', v') :: m, h => by
    have h1 := h (k', v') (by simp)
    have h2 : bytesLt k k' = false := bytesLt_asymm h1
    have h3 : k ≠ k' := fun e => bytesLt_ne h1 e.symm
    rw [putEntry, h2, if_neg (by decide), if_neg h3, put_last k v m fun p hp => h p (by simp [hp])]
    rfl

theorem put_sorted (f : V → V) : ∀ (l acc : List (Bytes × V)), (acc ++ l).Pairwise (fun p q => bytesLt p.1 q.1 = true) → (∀ p ∈ l, fixUtf8 p.1 = p.1 ∧ f p.2 = p.2) →
    l.foldl (fun m p => putEntry (fixUtf8 p.1) (f p.2) m) acc = acc ++ l
  | [], acc, _, _ => by simp
  | (k, v) :: l, acc, hp, hl => by
    have h1 := hl (k, v) (by simp)
    rw [List.foldl_cons]
    dsimp only at h1 ⊢
    rw [h1.1, h1.2, put_last k v acc]
    · rw [put_sorted f l _ (by simpa using hp) fun p hp => hl p (by simp [hp])]
      simp
    · intro p hm
      exact (List.pairwise_append.1 hp).2.2 p hm (k, v) (by simp)

mutual
/-- Nothing of a clean value is lost in a text. -/
theorem norm_clean : ∀ (s : Shape) (v : V), noOmit s = true → Clean s v → Exact s v → norm s v = v
  | .int, v, _, _, _ => by rw [norm.eq_def]
  | .uint, v, _, _, _ => by rw [norm.eq_def]
  | .bool, v, _, _, _ => by rw [norm.eq_def]
  | .bytes, v, _, _, _ => by rw [norm.eq_def]
  | .array n, v, _, _, _ => by rw [norm.eq_def]
  | .str, v, _, hc, hx => by
    cases v <;> simp only [Exact] at hx
    rw [Clean] at hc
    rw [norm, hc]
  | .time, v, _, hc, hx => by
    cases v <;> simp only [Exact] at hx
    rw [Clean] at hc
    rw [norm, hc]
  | .slice s, v, ho, hc, hx => by
    rw [noOmit] at ho
    cases v <;> simp only [Exact] at hx
    · rw [norm.eq_def]
    · rename_i l
      rw [Clean] at hc
      rw [norm]
      congr 1
      conv => rhs; rw [← List.map_id l]
      exact List.map_congr_left fun v hv => norm_clean s v ho (hc v hv) (hx v hv)
  | .ptr s, v, ho, hc, hx => by
    rw [noOmit] at ho
    cases v <;> simp only [Exact] at hx
    · rw [norm.eq_def]
    · rw [Clean] at hc
      rw [norm, norm_clean s _ ho hc hx]
  | .map s, v, ho, hc, hx => by
    rw [noOmit] at ho
    cases v <;> simp only [Exact] at hx
    · rw [norm.eq_def]
    · rename_i l
      rw [Clean] at hc
      rw [norm, put_sorted (norm s) l [] (by simpa using hc.1)]
      · rfl
      · intro p hp
        exact ⟨(hc.2 p hp).1, norm_clean s p.2 ho (hc.2 p hp).2 (hx p hp)⟩
  | .struct fs, v, ho, hc, hx => by
    rw [noOmit] at ho
    cases v <;> simp only [Exact] at hx
    rw [Clean] at hc
    rw [norm, norms_clean fs _ ho hc hx]

theorem norms_clean : ∀ (fs : List (Bytes × Bool × Shape)) (vs : List V), noOmits fs = true → Cleans fs vs → Exacts fs vs → norms fs vs = vs
  | [], [], _, _, _ => by rw [norms.eq_def]
  | [], _ :: _, _, _, hx => by rw [Exacts.eq_def] at hx; exact hx.elim
  | _ :: _, [], _, _, hx => by rw [Exacts.eq_def] at hx; exact hx.elim
  | (n, om, s) :: fs, v :: vs, ho, hc, hx => by
    rw [noOmits] at ho
    simp only [Bool.and_eq_true, Bool.not_eq_true'] at ho
    rw [Cleans] at hc
    rw [Exacts] at hx
    rw [norms, ho.1.1, norms_clean fs vs ho.2 hc.2 hx.2, norm_clean s v ho.1.2 hc.1 hx.1]
    rfl
end

mutual
theorem zero_clean : ∀ s : Shape, Clean s (zero s)
  | .int => by rw [zero, Clean.eq_def]; exact True.intro
  | .uint => by rw [zero, Clean.eq_def]; exact True.intro
  | .bool => by rw [zero, Clean.eq_def]; exact True.intro
  | .str => by rw [zero, Clean]; rfl
  | .bytes => by rw [zero, Clean.eq_def]; exact True.intro
  | .time => by rw [zero, Clean]; rfl
  | .slice _ => by rw [zero, Clean.eq_def]; exact True.intro
  | .array n => by rw [zero, Clean.eq_def]; exact True.intro
  | .ptr _ => by rw [zero, Clean.eq_def]; exact True.intro
  | .map _ => by rw [zero, Clean.eq_def]; exact True.intro
  | .struct fs => by rw [zero, Clean]; exact zeros_clean fs

theorem zeros_clean : ∀ fs : List (Bytes × Bool × Shape), Cleans fs (zeros fs)
  | [] => by rw [zeros, Cleans.eq_def]; exact True.intro
  | (_, _, s) :: fs => by rw [zeros, Cleans]; exact ⟨zero_clean s, zeros_clean fs⟩
end

theorem fixElems_mem {l : List J} (h : fixElems l = l) : ∀ j ∈ l, fix j = j := by
  induction l with
  | nil => intro j hj; cases hj
  | cons v l ih =>
    rw [fixElems] at h
    injection h with h1 h2
    intro j hj
    rcases List.mem_cons.1 hj with rfl | hj
    · exact h1
    · exact ih h2 j hj

theorem fixMembers_mem {l : List (Bytes × J)} (h : fixMembers l = l) : ∀ p ∈ l, fixUtf8 p.1 = p.1 ∧ fix p.2 = p.2 := by
  induction l with
  | nil => intro j hj; cases hj
  | cons v l ih =>
    obtain ⟨k, v⟩ := v
    rw [fixMembers] at h
    injection h with h1 h2
    simp only [Prod.mk.injEq] at h1
    intro j hj
    rcases List.mem_cons.1 hj with rfl | hj
    · exact h1
    · exact ih h2 j hj

theorem readElems_on (d : V → J → Option V) (z : V) (P : V → Prop) (Q : J → Prop) (hz : P z) (hd : ∀ o j v, Q j → P o → d o j = some v → P v) :
    ∀ (l : List J) (old r : List V), (∀ j ∈ l, Q j) → (∀ v ∈ old, P v) → readElems d z old l = some r → ∀ v ∈ r, P v
  | [], old, r, _, _, h, v, hv => by
    unfold readElems at h
    cases h
    cases hv
  | j :: l, old, r, hq, ho, h, v, hv => by
    unfold readElems at h
    split at h
    · cases h
    · rename_i w hw
      cases hr : readElems d z old.tail l with
      | none => rw [hr] at h; cases h
      | some r' =>
        rw [hr] at h
        cases h
        have hh : P (old.headD z) := by
          cases old with
          | nil => exact hz
          | cons a old => exact ho a (by simp)
        rcases List.mem_cons.1 hv with rfl | hv
        · exact hd _ _ _ (hq j (by simp)) hh hw
        · exact readElems_on d z P Q hz hd l old.tail r' (fun j hj => hq j (by simp [hj])) (fun v hv => ho v (List.mem_of_mem_tail hv)) hr v hv

theorem decFields_on {α : Type} (P : α → Prop) (Q : J → Prop) (names : List Bytes) (set : Nat → J → α → Option α) (hs : ∀ i j c c', Q j → P c → set i j c = some c' → P c') :
    ∀ (l : List (Bytes × J)) (c c' : α), (∀ p ∈ l, Q p.2) → P c → decFields names set c l = some c' → P c'
  | [], c, c', _, hc, h => by
    unfold decFields at h
    cases h
    exact hc
  | (k, v) :: l, c, c', hq, hc, h => by
    unfold decFields at h
    split at h
    · exact decFields_on P Q names set hs l c c' (fun p hp => hq p (by simp [hp])) hc h
    · split at h
      · cases h
      · rename_i c2 h2
        exact decFields_on P Q names set hs l c2 c' (fun p hp => hq p (by simp [hp])) (hs _ _ _ _ (hq (k, v) (by simp)) hc h2) h

theorem put_mem (k : Bytes) (v : V) : ∀ (m : List (Bytes × V)) (p : Bytes × V), p ∈ putEntry k v m → p = (k, v) ∨ p ∈ m
  | [], p, hp => by rw [putEntry] at hp; exact .inl (List.mem_singleton.1 hp)
  | (k', v') :: m, p, hp => by
    rw [putEntry] at hp
    split at hp
    · rcases List.mem_cons.1 hp with rfl | hp
      · exact .inl rfl
      · exact .inr hp
    · split at hp
      · rcases List.mem_cons.1 hp with rfl | hp
        · exact .inl rfl
        · exact .inr (by simp [hp])
      · rcases List.mem_cons.1 hp with rfl | hp
        · exact .inr (by simp)
        · rcases put_mem k v m p hp with h | h
          · exact .inl h
          · exact .inr (by simp [h])

theorem put_pairwise (k : Bytes) (v : V) : ∀ m : List (Bytes × V), m.Pairwise (fun p q => bytesLt p.1 q.1 = true) → (putEntry k v m).Pairwise (fun p q => bytesLt p.1 q.1 = true)
  | [], _ => by rw [putEntry]; exact List.pairwise_singleton _ _
  | (k', v') :: m, h => by
    rw [putEntry]
    have hc := List.pairwise_cons.1 h
    split
    · rename_i hlt
      refine List.pairwise_cons.2 ⟨?_, h⟩
      intro p hp
      rcases List.mem_cons.1 hp with rfl | hp
      · exact hlt
      · exact bytesLt_trans hlt (hc.1 p hp)
    · rename_i hlt
      split
      · rename_i e
        subst e
        exact List.pairwise_cons.2 ⟨hc.1, hc.2⟩
      · rename_i hne
        refine List.pairwise_cons.2 ⟨?_, put_pairwise k v m hc.2⟩
        intro p hp
        rcases put_mem k v m p hp with rfl | hp
        · rcases bytesLt_total hne with h | h
          · exact absurd h hlt
          · exact h
        · exact hc.1 p hp

theorem readEntries_on (d : J → Option V) (P : V → Prop) (Q : J → Prop) (hd : ∀ j v, Q j → d j = some v → P v) : ∀ (l : List (Bytes × J)) (m r : List (Bytes × V)),
    (∀ p ∈ l, fixUtf8 p.1 = p.1 ∧ Q p.2) → (m.Pairwise (fun p q => bytesLt p.1 q.1 = true) ∧ ∀ p ∈ m, fixUtf8 p.1 = p.1 ∧ P p.2) → readEntries d m l = some r →
    r.Pairwise (fun p q => bytesLt p.1 q.1 = true) ∧ ∀ p ∈ r, fixUtf8 p.1 = p.1 ∧ P p.2
  | [], m, r, _, hm, h => by rw [readEntries] at h; cases h; exact hm
  | (k, j) :: l, m, r, hq, hm, h => by
    rw [readEntries] at h
    split at h
    · cases h
    · rename_i v hv
      have hk := hq (k, j) (by simp)
      refine readEntries_on d P Q hd l _ r (fun p hp => hq p (by simp [hp])) ⟨put_pairwise k v m hm.1, ?_⟩ h
      intro p hp
      rcases put_mem k v m p hp with rfl | hp
      · exact ⟨hk.1, hd j v hk.2 hv⟩
      · exact hm.2 p hp

theorem parseTime_norm {x : Bytes} {t : Time} (h : parseTime x = some t) : t.norm = t := by
  unfold parseTime at h
  repeat' split at h
  all_goals first
    | cases h; done
    | (cases h; rfl)
    | skip

theorem clean_elemsOf (s : Shape) (v : V) (h : Clean (.slice s) v) : ∀ x ∈ elemsOf v, Clean s x := by
  cases v with
  | slice l => rw [Clean] at h; exact h
  | _ => intro x hx; cases hx

theorem clean_fieldsOf (fs : List (Bytes × Bool × Shape)) (v : V) (h : Clean (.struct fs) v) : Cleans fs (fieldsOf v) := by
  cases v with
  | struct l => rw [Clean] at h; exact h
  | _ => cases fs <;> (show Cleans _ []; rw [Cleans.eq_def]; exact True.intro)

theorem clean_entriesOf (s : Shape) (v : V) (h : Clean (.map s) v) : (entriesOf v).Pairwise (fun p q => bytesLt p.1 q.1 = true) ∧ ∀ p ∈ entriesOf v, fixUtf8 p.1 = p.1 ∧ Clean s p.2 := by
  cases v with
  | map l => rw [Clean] at h; exact h
  | _ => exact ⟨List.Pairwise.nil, fun p hp => by cases hp⟩

theorem clean_pointee (s : Shape) (z v : V) (hz : Clean s z) (h : Clean (.ptr s) v) : Clean s (pointee z v) := by
  cases v with
  | ptr v => rw [Clean] at h; exact h
  | _ => exact hz

mutual
/-- What is read from a text is clean. -/
theorem dec_clean : ∀ (s : Shape) (old : V) (j : J) (v : V), fix j = j → Clean s old → decJ s old j = some v → Clean s v
  | .int, old, j, v, _, _, _ => by rw [Clean.eq_def]; exact True.intro
  | .uint, old, j, v, _, _, _ => by rw [Clean.eq_def]; exact True.intro
  | .bool, old, j, v, _, _, _ => by rw [Clean.eq_def]; exact True.intro
  | .bytes, old, j, v, _, _, _ => by rw [Clean.eq_def]; exact True.intro
  | .array n, old, j, v, _, _, _ => by rw [Clean.eq_def]; exact True.intro
  | .str, old, j, v, hj, ho, h => by
    cases j with
    | null => simp only [decJ] at h; cases h; exact ho
    | str s =>
      simp only [decJ] at h
      cases h
      rw [fix] at hj
      simp only [J.str.injEq] at hj
      rw [Clean]
      exact hj
    | _ => simp only [decJ] at h; cases h
  | .time, old, j, v, hj, ho, h => by
    cases j with
    | null => simp only [decJ] at h; cases h; exact ho
    | str s =>
      simp only [decJ] at h
      cases hp : parseTime s with
      | none => rw [hp] at h; cases h
      | some t =>
        rw [hp] at h
        cases h
        rw [Clean]
        exact parseTime_norm hp
    | _ => simp only [decJ] at h; cases h
  | .slice s, old, j, v, hj, ho, h => by
    cases j with
    | null => simp only [decJ] at h; cases h; rw [Clean.eq_def]; exact True.intro
    | arr l =>
      simp only [decJ] at h
      cases hp : readElems (decJ s) (zero s) (elemsOf old) l with
      | none => rw [hp] at h; cases h
      | some r =>
        rw [hp] at h
        cases h
        rw [fix] at hj
        injection hj with hj
        rw [Clean]
        exact readElems_on (decJ s) (zero s) (Clean s) (fun j => fix j = j) (zero_clean s) (fun o j v hq ho => dec_clean s o j v hq ho) l (elemsOf old) r (fixElems_mem hj) (clean_elemsOf s old ho) hp
    | _ => simp only [decJ] at h; cases h
  | .ptr s, old, j, v, hj, ho, h => by
    rw [decJ] at h
    split at h
    · cases h; rw [Clean.eq_def]; exact True.intro
    · cases hp : decJ s (pointee (zero s) old) j with
      | none => rw [hp] at h; cases h
      | some r =>
        rw [hp] at h
        cases h
        rw [Clean]
        exact dec_clean s _ j r hj (clean_pointee s _ old (zero_clean s) ho) hp
  | .map s, old, j, v, hj, ho, h => by
    cases j with
    | null => simp only [decJ] at h; cases h; rw [Clean.eq_def]; exact True.intro
    | obj l =>
      simp only [decJ] at h
      cases hp : readEntries (decJ s (zero s)) (entriesOf old) l with
      | none => rw [hp] at h; cases h
      | some r =>
        rw [hp] at h
        cases h
        rw [fix] at hj
        injection hj with hj
        rw [Clean]
        exact readEntries_on (decJ s (zero s)) (Clean s) (fun j => fix j = j) (fun j v hq => dec_clean s _ j v hq (zero_clean s)) l _ r (fixMembers_mem hj) (clean_entriesOf s old ho) hp
    | _ => simp only [decJ] at h; cases h
  | .struct fs, old, j, v, hj, ho, h => by
    cases j with
    | null => simp only [decJ] at h; cases h; exact ho
    | obj l =>
      simp only [decJ] at h
      cases hp : decFields (names fs) (setField (decJs fs)) (fieldsOf old) l with
      | none => rw [hp] at h; cases h
      | some r =>
        rw [hp] at h
        cases h
        rw [fix] at hj
        injection hj with hj
        rw [Clean]
        refine decFields_on (Cleans fs) (fun j => fix j = j) (names fs) (setField (decJs fs)) ?_ l (fieldsOf old) r (fun p hp => (fixMembers_mem hj p hp).2) (clean_fieldsOf fs old ho) hp
        intro i j c c' hq hc hs
        exact decs_clean fs i j c c' hq hc hs
    | _ => simp only [decJ] at h; cases h

theorem decs_clean : ∀ (fs : List (Bytes × Bool × Shape)) (i : Nat) (j : J) (vs vs' : List V), fix j = j → Cleans fs vs → setField (decJs fs) i j vs = some vs' → Cleans fs vs'
  | [], i, j, vs, vs', _, _, h => by
    unfold setField decJs at h
    simp at h
  | (n, b, s) :: fs, i, j, [], vs', _, _, h => by
    unfold setField at h
    split at h
    · rename_i h2
      simp at h2
    · cases h
  | (n, b, s) :: fs, i, j, v :: vs, vs', hj, he, h => by
    rw [Cleans] at he
    cases i with
    | zero =>
      simp only [setField, decJs, List.getElem?_cons_zero] at h
      cases hp : decJ s v j with
      | none => rw [hp] at h; cases h
      | some w =>
        rw [hp] at h
        cases h
        dsimp only
        rw [List.set_cons_zero, Cleans]
        exact ⟨dec_clean s v j w hj he.1 hp, he.2⟩
    | succ i =>
      have ih := decs_clean fs i j vs
      simp only [setField, decJs, List.getElem?_cons_succ] at h
      simp only [setField] at ih
      split at h
      · rename_i d old hd ho
        simp only [hd, ho] at ih
        cases hp : d old j with
        | none => rw [hp] at h; cases h
        | some w =>
          rw [hp] at h ih
          cases h
          dsimp only
          rw [List.set_cons_succ, Cleans]
          exact ⟨he.1, ih _ hj he.2 rfl⟩
      · cases h
end

end Fpki.Reflect
