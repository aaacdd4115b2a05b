import Verif.Lemmas.Reflect
import Verif.Lemmas.JsonUtf8
/-!
Texts that encoding/json reads into Go values are UTF-8.
-/
namespace Fpki.Reflect

open Fpki.Json Fpki.Config Fpki.Calendar
open Fpki.Policy (Time fixUtf8)

mutual
/-- All texts in the value are UTF-8 (keys of maps are not looked at). -/
def Utf8V : V → Prop
  | .str s => fixUtf8 s = s
  | .slice l => Utf8Vs l
  | .ptr v => Utf8V v
  | .map l => Utf8Ms l
  | .struct l => Utf8Vs l
  | .int _ | .uint _ | .bool _ | .bytes _ | .time _ | .nilSlice | .array _ | .nilPtr | .nilMap => True

def Utf8Vs : List V → Prop
  | [] => True
  | v :: l => Utf8V v ∧ Utf8Vs l

def Utf8Ms : List (Bytes × V) → Prop
  | [] => True
  | (_, v) :: l => Utf8V v ∧ Utf8Ms l
end

theorem utf8Vs_iff : ∀ l : List V, Utf8Vs l ↔ ∀ v ∈ l, Utf8V v
  | [] => by rw [Utf8Vs]; simp
  | v :: l => by rw [Utf8Vs, utf8Vs_iff l]; simp

theorem utf8Ms_iff : ∀ l : List (Bytes × V), Utf8Ms l ↔ ∀ p ∈ l, Utf8V p.2
  | [] => by rw [Utf8Ms]; simp
  | (k, v) :: l => by rw [Utf8Ms, utf8Ms_iff l]; simp

mutual
theorem zero_utf8 : ∀ s : Shape, Utf8V (zero s)
  | .int | .uint | .bool | .bytes | .time | .slice _ | .array _ | .ptr _ | .map _ => by rw [zero, Utf8V]; exact True.intro
  | .str => by rw [zero, Utf8V]; decide +kernel
  | .struct fs => by rw [zero, Utf8V]; exact zeros_utf8 fs

theorem zeros_utf8 : ∀ fs : List (Bytes × Bool × Shape), Utf8Vs (zeros fs)
  | [] => by rw [zeros, Utf8Vs]; exact True.intro
  | (_, _, s) :: fs => by rw [zeros, Utf8Vs]; exact ⟨zero_utf8 s, zeros_utf8 fs⟩
end

theorem fixElems_iff : ∀ l : List J, fixElems l = l ↔ ∀ j ∈ l, fix j = j
  | [] => by rw [fixElems]; simp
  | j :: l => by rw [fixElems, List.cons.injEq, fixElems_iff l]; simp

theorem fixMembers_iff : ∀ l : List (Bytes × J), fixMembers l = l ↔ ∀ p ∈ l, fixUtf8 p.1 = p.1 ∧ fix p.2 = p.2
  | [] => by rw [fixMembers]; simp
  | (k, j) :: l => by rw [fixMembers, List.cons.injEq, fixMembers_iff l, Prod.mk.injEq]; simp

theorem readElems_utf8 (d : V → J → Option V) (z : V) (hz : Utf8V z) (hd : ∀ o j v, fix j = j → Utf8V o → d o j = some v → Utf8V v) :
    ∀ (l : List J) (old r : List V), (∀ j ∈ l, fix j = j) → (∀ v ∈ old, Utf8V v) → readElems d z old l = some r → ∀ v ∈ r, Utf8V v
  | [], old, r, _, _, h, v, hv => by
    unfold readElems at h
    cases h
    cases hv
  | j :: l, old, r, hj, ho, h, v, hv => by
    unfold readElems at h
    split at h
    · cases h
    · rename_i w hw
      cases hr : readElems d z old.tail l with
      | none => rw [hr] at h; cases h
      | some r' =>
        rw [hr] at h
        cases h
        have hh : Utf8V (old.headD z) := by
          cases old with
          | nil => exact hz
          | cons a old => exact ho a (by simp)
        rcases List.mem_cons.1 hv with rfl | hv
        · exact hd _ _ _ (hj j (by simp)) hh hw
        · exact readElems_utf8 d z hz hd l old.tail r' (fun j h => hj j (by simp [h])) (fun v hv => ho v (List.mem_of_mem_tail hv)) hr v hv

theorem readEntries_utf8 (d : J → Option V) (hd : ∀ j v, fix j = j → d j = some v → Utf8V v) : ∀ (l : List (Bytes × J)) (m r : List (Bytes × V)), (∀ p ∈ l, fix p.2 = p.2) →
    (∀ p ∈ m, Utf8V p.2) → readEntries d m l = some r → ∀ p ∈ r, Utf8V p.2
  | [], m, r, _, hm, h => by rw [readEntries] at h; cases h; exact hm
  | (k, j) :: l, m, r, hl, hm, h => by
    rw [readEntries] at h
    split at h
    · cases h
    · rename_i v hv
      exact readEntries_utf8 d hd l _ r (fun p hp => hl p (by simp [hp])) (putEntry_mem k v (hd j v (hl (k, j) (by simp)) hv) m hm) h

theorem decFields_utf8 (names : List Bytes) (set : Nat → J → List V → Option (List V)) (hs : ∀ i j c c', fix j = j → Utf8Vs c → set i j c = some c' → Utf8Vs c') :
    ∀ (l : List (Bytes × J)) (c c' : List V), (∀ p ∈ l, fix p.2 = p.2) → Utf8Vs c → decFields names set c l = some c' → Utf8Vs c'
  | [], c, c', _, hc, h => by
    unfold decFields at h
    cases h
    exact hc
  | (k, v) :: l, c, c', hl, hc, h => by
    unfold decFields at h
    split at h
    · exact decFields_utf8 names set hs l c c' (fun p hp => hl p (by simp [hp])) hc h
    · split at h
      · cases h
      · rename_i c2 h2
        exact decFields_utf8 names set hs l c2 c' (fun p hp => hl p (by simp [hp])) (hs _ _ _ _ (hl (k, v) (by simp)) hc h2) h

theorem utf8_elemsOf (v : V) (h : Utf8V v) : ∀ x ∈ elemsOf v, Utf8V x := by
  cases v with
  | slice l => rw [Utf8V] at h; exact (utf8Vs_iff l).1 h
  | _ => intro x hx; cases hx

theorem utf8_entriesOf (v : V) (h : Utf8V v) : ∀ p ∈ entriesOf v, Utf8V p.2 := by
  cases v with
  | map l => rw [Utf8V] at h; exact (utf8Ms_iff l).1 h
  | _ => intro x hx; cases hx

theorem utf8_fieldsOf (v : V) (h : Utf8V v) : Utf8Vs (fieldsOf v) := by
  cases v with
  | struct l => rw [Utf8V] at h; exact h
  | _ => rw [fieldsOf.eq_def]; simp only [Utf8Vs]

theorem utf8_pointee (z v : V) (hz : Utf8V z) (h : Utf8V v) : Utf8V (pointee z v) := by
  cases v with
  | ptr v => rw [Utf8V] at h; exact h
  | _ => exact hz

mutual
theorem dec_utf8 : ∀ (s : Shape) (old : V) (j : J) (v : V), fix j = j → Utf8V old → decJ s old j = some v → Utf8V v
  | .int, old, j, v, hj, ho, h => by
    cases j with
    | null => simp only [decJ] at h; cases h; exact ho
    | num lit =>
      simp only [decJ] at h
      cases hp : Rows.parseInt64 lit with
      | none => rw [hp] at h; cases h
      | some i => rw [hp] at h; cases h; rw [Utf8V]; exact True.intro
    | _ => simp only [decJ] at h; cases h
  | .uint, old, j, v, hj, ho, h => by
    cases j with
    | null => simp only [decJ] at h; cases h; exact ho
    | num lit =>
      simp only [decJ] at h
      cases hp : decUint 0 (.num lit) with
      | none => rw [hp] at h; cases h
      | some i => rw [hp] at h; cases h; rw [Utf8V]; exact True.intro
    | _ => simp only [decJ] at h; cases h
  | .bool, old, j, v, hj, ho, h => by
    cases j with
    | null => simp only [decJ] at h; cases h; exact ho
    | bool b => simp only [decJ] at h; cases h; rw [Utf8V]; exact True.intro
    | _ => simp only [decJ] at h; cases h
  | .str, old, j, v, hj, ho, h => by
    cases j with
    | null => simp only [decJ] at h; cases h; exact ho
    | str s =>
      simp only [decJ] at h
      cases h
      rw [Utf8V]
      rw [fix, J.str.injEq] at hj
      exact hj
    | _ => simp only [decJ] at h; cases h
  | .bytes, old, j, v, hj, ho, h => by
    cases j with
    | null => simp only [decJ] at h; cases h; rw [Utf8V]; exact True.intro
    | str s =>
      simp only [decJ] at h
      cases hp : Rows.decodeField s with
      | none => rw [hp] at h; cases h
      | some b => rw [hp] at h; cases h; rw [Utf8V]; exact True.intro
    | _ => simp only [decJ] at h; cases h
  | .time, old, j, v, hj, ho, h => by
    cases j with
    | null => simp only [decJ] at h; cases h; exact ho
    | str s =>
      simp only [decJ] at h
      cases hp : parseTime s with
      | none => rw [hp] at h; cases h
      | some t => rw [hp] at h; cases h; rw [Utf8V]; exact True.intro
    | _ => simp only [decJ] at h; cases h
  | .slice s, old, j, v, hj, ho, h => by
    cases j with
    | null => simp only [decJ] at h; cases h; rw [Utf8V]; exact True.intro
    | arr l =>
      simp only [decJ] at h
      rw [fix, J.arr.injEq] at hj
      cases hp : readElems (decJ s) (zero s) (elemsOf old) l with
      | none => rw [hp] at h; cases h
      | some r =>
        rw [hp] at h
        cases h
        rw [Utf8V, utf8Vs_iff]
        exact readElems_utf8 (decJ s) (zero s) (zero_utf8 s) (fun o j v => dec_utf8 s o j v) l (elemsOf old) r ((fixElems_iff l).1 hj) (utf8_elemsOf old ho) hp
    | _ => simp only [decJ] at h; cases h
  | .array n, old, j, v, hj, ho, h => by
    cases j with
    | null => simp only [decJ] at h; cases h; exact ho
    | arr l =>
      simp only [decJ] at h
      cases hp : readBytes n (bytesOf old) l with
      | none => rw [hp] at h; cases h
      | some r => rw [hp] at h; cases h; rw [Utf8V]; exact True.intro
    | _ => simp only [decJ] at h; cases h
  | .ptr s, old, j, v, hj, ho, h => by
    rw [decJ] at h
    split at h
    · cases h; rw [Utf8V]; exact True.intro
    · cases hp : decJ s (pointee (zero s) old) j with
      | none => rw [hp] at h; cases h
      | some r =>
        rw [hp] at h
        cases h
        rw [Utf8V]
        exact dec_utf8 s _ j r hj (utf8_pointee _ old (zero_utf8 s) ho) hp
  | .map s, old, j, v, hj, ho, h => by
    cases j with
    | null => simp only [decJ] at h; cases h; rw [Utf8V]; exact True.intro
    | obj l =>
      simp only [decJ] at h
      rw [fix, J.obj.injEq] at hj
      cases hp : readEntries (decJ s (zero s)) (entriesOf old) l with
      | none => rw [hp] at h; cases h
      | some r =>
        rw [hp] at h
        cases h
        rw [Utf8V, utf8Ms_iff]
        exact readEntries_utf8 (decJ s (zero s)) (fun j v hj => dec_utf8 s _ j v hj (zero_utf8 s)) l _ r (fun p hp => ((fixMembers_iff l).1 hj p hp).2) (utf8_entriesOf old ho) hp
    | _ => simp only [decJ] at h; cases h
  | .struct fs, old, j, v, hj, ho, h => by
    cases j with
    | null => simp only [decJ] at h; cases h; exact ho
    | obj l =>
      simp only [decJ] at h
      rw [fix, J.obj.injEq] at hj
      cases hp : decFields (names fs) (setField (decJs fs)) (fieldsOf old) l with
      | none => rw [hp] at h; cases h
      | some r =>
        rw [hp] at h
        cases h
        rw [Utf8V]
        refine decFields_utf8 (names fs) (setField (decJs fs)) ?_ l (fieldsOf old) r (fun p hp => ((fixMembers_iff l).1 hj p hp).2) (utf8_fieldsOf old ho) hp
        intro i j c c' hj hc hs
        exact decs_utf8 fs i j c c' hj hc hs
    | _ => simp only [decJ] at h; cases h

theorem decs_utf8 : ∀ (fs : List (Bytes × Bool × Shape)) (i : Nat) (j : J) (vs vs' : List V), fix j = j → Utf8Vs vs → setField (decJs fs) i j vs = some vs' → Utf8Vs vs'
  | [], i, j, vs, vs', _, _, h => by
    unfold setField decJs at h
    simp at h
  | (n, b, s) :: fs, i, j, [], vs', _, he, h => by
    unfold setField at h
    simp at h
  | (n, b, s) :: fs, i, j, v :: vs, vs', hj, he, h => by
    rw [Utf8Vs] at he
    cases i with
    | zero =>
      simp only [setField, decJs, List.getElem?_cons_zero] at h
      cases hp : decJ s v j with
      | none => rw [hp] at h; cases h
      | some w =>
        rw [hp] at h
        cases h
        dsimp only
        rw [List.set_cons_zero, Utf8Vs]
        exact ⟨dec_utf8 s v j w hj he.1 hp, he.2⟩
    | succ i =>
      have ih := decs_utf8 fs i j vs
      simp only [setField, decJs, List.getElem?_cons_succ] at h
      unfold setField at ih
      cases hd : (decJs fs)[i]? with
      | none => rw [hd] at h; cases h
      | some d =>
        cases ho : vs[i]? with
        | none => rw [hd, ho] at h; cases h
        | some old =>
          rw [hd, ho] at h ih
          dsimp only at h ih
          cases hp : d old j with
          | none => rw [hp] at h; cases h
          | some w =>
            rw [hp] at h ih
            cases h
            dsimp only
            rw [List.set_cons_succ, Utf8Vs]
            exact ⟨he.1, ih (vs.set i w) hj he.2 rfl⟩
end

end Fpki.Reflect
