import Verif.Model.Reflect
import Verif.Lemmas.Calendar
/-! Lemmas for C102: what the library writes is read again, for every type. -/
namespace Fpki.Reflect

open Fpki.Json Fpki.Config Fpki.Calendar
open Fpki.Policy (Time fixUtf8 ValidUtf8)

mutual
/-- What is read again: byte strings that are not UTF-8 are changed, empty lists may become nil, times lose what is not shown. -/
def norm : Shape → V → V
  | .str, .str s => .str (fixUtf8 s)
  | .time, .time t => .time t.norm
  | .slice s, .slice l => .slice (l.map (norm s))
  | .ptr s, .ptr v => .ptr (norm s v)
  | .map s, .map l => .map (l.foldl (fun m p => putEntry (fixUtf8 p.1) (norm s p.2) m) [])
  | .struct fs, .struct vs => .struct (norms fs vs)
  | _, v => v

def norms : List (Bytes × Bool × Shape) → List V → List V
  | (_, om, s) :: fs, v :: vs => (if om && isEmpty v then zero s else norm s v) :: norms fs vs
  | _, _ => []
end

mutual
/-- The value belongs to the type: the numbers have 64 bits, the zones of the times are whole minutes. -/
def Exact : Shape → V → Prop
  | .int, .int i => -(2 ^ 63) ≤ i ∧ i < 2 ^ 63
  | .uint, .uint n => n < 2 ^ 64
  | .bool, .bool _ => True
  | .str, .str _ => True
  | .bytes, .bytes _ => True
  | .time, .time t => t.Whole
  | .slice _, .nilSlice => True
  | .slice s, .slice l => ∀ v ∈ l, Exact s v
  | .array n, .array b => b.length = n
  | .ptr _, .nilPtr => True
  | .ptr s, .ptr v => Exact s v
  | .map _, .nilMap => True
  | .map s, .map l => ∀ p ∈ l, Exact s p.2
  | .struct fs, .struct vs => Exacts fs vs
  | _, _ => False

def Exacts : List (Bytes × Bool × Shape) → List V → Prop
  | [], [] => True
  | (_, _, s) :: fs, v :: vs => Exact s v ∧ Exacts fs vs
  | _, _ => False
end

mutual
/-- The names of the fields of a struct are different, and ASCII; pointers are to structs. -/
def wf : Shape → Bool
  | .slice s => wf s
  | .ptr (.struct fs) => wf (.struct fs)
  | .ptr _ => false
  | .map s => wf s
  | .struct fs => decide (names fs).Nodup && wfs fs
  | _ => true

def wfs : List (Bytes × Bool × Shape) → Bool
  | [] => true
  | (n, _, s) :: fs => n.all (fun c => decide (c < 0x80)) && wf s && wfs fs
end

theorem base64_ascii (b : Bytes) : ∀ c ∈ CsvLoad.base64 b, c < 0x80 :=
  Rows.base64_forall (P := fun c => c < 0x80) (by decide) (by decide) b

theorem fracDigits_digits (w n : Nat) : ∀ c ∈ fracDigits w n, digit c = true := by
  induction w generalizing n with
  | zero => intro c hc; cases hc
  | succ w ih =>
    unfold fracDigits
    split
    · exact ih _
    · exact pad_digits _ _

theorem timeText_ascii (t : Time) (x : Bytes) (h : timeText t = some x) : ∀ c ∈ x, c < 0x80 := by
  unfold timeText at h
  dsimp only at h
  split at h
  · cases h
  split at h
  · cases h
  cases h
  have hp : ∀ w n, ∀ c ∈ pad w n, c < 0x80 := fun w n c hc => ascii_of_digit (pad_digits w n c hc)
  have hcons : ∀ (b : Byte) (l : Bytes), b < 0x80 → (∀ c ∈ l, c < 0x80) → ∀ c ∈ b :: l, c < 0x80 := by
    intro b l hb hl c hc
    rcases List.mem_cons.1 hc with rfl | hc
    · exact hb
    · exact hl c hc
  have happ : ∀ (a l : Bytes), (∀ c ∈ a, c < 0x80) → (∀ c ∈ l, c < 0x80) → ∀ c ∈ a ++ l, c < 0x80 := by
    intro a l ha hl c hc
    rcases List.mem_append.1 hc with hc | hc
    · exact ha c hc
    · exact hl c hc
  simp only [List.append_assoc, List.cons_append]
  refine happ _ _ (hp _ _) (hcons _ _ (by decide) (happ _ _ (hp _ _) (hcons _ _ (by decide) (happ _ _ (hp _ _) (hcons _ _ (by decide) (happ _ _ (hp _ _) (hcons _ _ (by decide)
    (happ _ _ (hp _ _) (hcons _ _ (by decide) (happ _ _ (hp _ _) (happ _ _ ?_ ?_)))))))))))
  · split
    · intro c hc; cases hc
    · exact hcons _ _ (by decide) (fun c hc => ascii_of_digit (fracDigits_digits _ _ c hc))
  · split
    · exact hcons _ _ (by decide) (fun c hc => by cases hc)
    · exact hcons _ _ (by split <;> decide) (happ _ _ (hp _ _) (hcons _ _ (by decide) (hp _ _)))

theorem elems_back (e : V → Option J) (d : V → J → Option V) (z : V) (nm : V → V) (l : List V) (js : List J)
    (hv : ∀ v ∈ l, ∀ j, e v = some j → Ints j ∧ d z (fix j) = some (nm v)) (h : encElems e l = some js) :
    (∀ j ∈ js, Ints j) ∧ readElems d z [] (js.map fix) = some (l.map nm) := by
  induction l generalizing js with
  | nil => cases h; exact ⟨(fun j hj => by cases hj), rfl⟩
  | cons v l ih =>
    unfold encElems at h
    split at h
    · rename_i j js' hj hjs
      cases h
      obtain ⟨i1, i2⟩ := ih js' (fun w hw => hv w (by simp [hw])) hjs
      obtain ⟨k1, k2⟩ := hv v (by simp) j hj
      refine ⟨?_, ?_⟩
      · intro j' hj'
        rcases List.mem_cons.1 hj' with rfl | hj'
        · exact k1
        · exact i1 j' hj'
      · show (match d z (fix j) with | none => none | some v => (readElems d z [] (js'.map fix)).map (v :: ·)) = _
        rw [k2, i2]
        rfl
    · cases h

theorem zeros_length : ∀ fs, (zeros fs).length = fs.length
  | [] => by rw [zeros]; rfl
  | (_, _, s) :: fs => by rw [zeros, List.length_cons, List.length_cons, zeros_length fs]

theorem decJs_length : ∀ fs, (decJs fs).length = fs.length
  | [] => by rw [decJs]; rfl
  | (_, _, s) :: fs => by rw [decJs, List.length_cons, List.length_cons, decJs_length fs]

theorem names_length (fs) : (names fs).length = fs.length := by unfold names; rw [List.length_map]

/-- A name is found at its place. -/
theorem index_at (a : List Bytes) (n : Bytes) (b : List Bytes) (h : (a ++ n :: b).Nodup) : fieldIndex (a ++ n :: b) n = some a.length := by
  unfold fieldIndex
  have : (a ++ n :: b).findIdx? (· == n) = some a.length := by
    rw [List.findIdx?_eq_some_iff_getElem]
    refine ⟨by simp, by simp, ?_⟩
    intro i hi
    simp only [List.getElem_append_left hi, Bool.not_eq_true, beq_eq_false_iff_ne, ne_eq]
    intro e
    have hm : n ∈ a := e ▸ List.getElem_mem hi
    exact (List.nodup_append.1 h).2.2 n hm n (by simp) rfl
  rw [this]

theorem entries_back (e : V → Option J) (d : J → Option V) (nm : V → V) (l : List (Bytes × V)) (js : List (Bytes × J)) (m : List (Bytes × V))
    (hv : ∀ p ∈ l, ∀ j, e p.2 = some j → Ints j ∧ d (fix j) = some (nm p.2)) (h : encEntries e l = some js) :
    (∀ p ∈ js, Ints p.2) ∧ readEntries d m (fixMembers js) = some (l.foldl (fun m p => putEntry (fixUtf8 p.1) (nm p.2) m) m) := by
  induction l generalizing js m with
  | nil => cases h; exact ⟨(fun j hj => by cases hj), by rw [fixMembers]; rfl⟩
  | cons p l ih =>
    obtain ⟨k, v⟩ := p
    unfold encEntries at h
    split at h
    · rename_i j js' hj hjs
      cases h
      obtain ⟨k1, k2⟩ := hv (k, v) (by simp) j hj
      obtain ⟨i1, i2⟩ := ih js' (putEntry (fixUtf8 k) (nm v) m) (fun w hw => hv w (by simp [hw])) hjs
      refine ⟨?_, ?_⟩
      · intro j' hj'
        rcases List.mem_cons.1 hj' with rfl | hj'
        · exact k1
        · exact i1 j' hj'
      · rw [fixMembers, readEntries, k2]
        dsimp only
        rw [i2]
        rfl
    · cases h

theorem bytes_back (b old : Bytes) : (∀ j ∈ byteJs b, Ints j) ∧ readBytes b.length old (fixElems (byteJs b)) = some b := by
  induction b generalizing old with
  | nil => exact ⟨(fun j hj => by cases hj), rfl⟩
  | cons x b ih =>
    refine ⟨?_, ?_⟩
    · intro j hj
      rcases List.mem_cons.1 hj with rfl | hj
      · unfold Ints; exact natText_int _
      · exact (ih []).1 j hj
    · have hn : Rows.digitsVal 0 (natText x.toNat) = some x.toNat := by rw [natText_eq]; exact Rows.digitsVal_decimal _
      show readBytes (b.length + 1) old (fixElems (.num (natText x.toNat) :: byteJs b)) = _
      rw [fixElems, readBytes, fix, decByte, hn]
      dsimp only
      rw [if_pos (UInt8.toNat_lt x)]
      dsimp only
      rw [(ih old.tail).2, UInt8.ofNat_toNat]
      rfl

theorem struct_not_null (fs : List (Bytes × Bool × Shape)) (v : V) (j : J) (h : encJ (.struct fs) v = some j) : isNull (fix j) = false := by
  cases v with
  | struct vs =>
    rw [encJ] at h
    cases hl : encFields fs vs with
    | none => rw [hl] at h; cases h
    | some l =>
      rw [hl] at h
      cases h
      rw [fix]
      rfl
  | _ => rw [encJ.eq_def] at h; cases h

mutual
/-- What is written for a value is read as that value, apart from what the text does not show. -/
theorem dec_enc : ∀ (s : Shape), wf s = true → ∀ (v : V) (j : J), Exact s v → encJ s v = some j → Ints j ∧ decJ s (zero s) (fix j) = some (norm s v)
  | .int, _, v, j, hx, he => by
    cases v <;> simp only [Exact] at hx
    rename_i i
    simp only [encJ, Option.some.injEq] at he
    subst he
    refine ⟨by unfold Ints; exact intText_int i, ?_⟩
    unfold fix norm
    simp only [decJ, parseInt64_intText i hx.1 hx.2, Option.map_some]
  | .uint, _, v, j, hx, he => by
    cases v <;> simp only [Exact] at hx
    rename_i n
    simp only [encJ, Option.some.injEq] at he
    subst he
    refine ⟨by unfold Ints; exact natText_int n, ?_⟩
    have hn : Rows.digitsVal 0 (natText n) = some n := by rw [natText_eq]; exact Rows.digitsVal_decimal _
    unfold fix norm
    simp only [decJ, decUint, hn, if_pos hx, Option.map_some]
  | .bool, _, v, j, hx, he => by
    cases v <;> simp only [Exact] at hx
    simp only [encJ, Option.some.injEq] at he
    subst he
    refine ⟨by unfold Ints; exact True.intro, ?_⟩
    unfold fix norm
    simp only [decJ]
  | .str, _, v, j, hx, he => by
    cases v <;> simp only [Exact] at hx
    simp only [encJ, Option.some.injEq] at he
    subst he
    refine ⟨by unfold Ints; exact True.intro, ?_⟩
    unfold fix norm
    simp only [decJ]
  | .bytes, _, v, j, hx, he => by
    cases v <;> simp only [Exact] at hx
    rename_i b
    cases b with
    | none =>
      simp only [encJ, Option.some.injEq] at he
      subst he
      refine ⟨by unfold Ints; exact True.intro, ?_⟩
      unfold fix norm
      simp only [decJ]
    | some b =>
      simp only [encJ, Option.some.injEq] at he
      subst he
      have hs := stays_str (fix_ascii _ (base64_ascii b))
      refine ⟨hs.1, ?_⟩
      rw [hs.2]
      unfold norm
      simp only [decJ, Rows.decodeField_base64, Option.map_some]
  | .time, _, v, j, hx, he => by
    cases v <;> simp only [Exact] at hx
    rename_i t
    simp only [encJ] at he
    cases ht : timeText t with
    | none => rw [ht] at he; cases he
    | some x =>
      rw [ht] at he
      cases he
      have hs := stays_str (fix_ascii _ (timeText_ascii t x ht))
      refine ⟨hs.1, ?_⟩
      rw [hs.2]
      unfold norm
      simp only [decJ, parse_timeText t hx x ht, Option.map_some]
  | .slice s, hw, v, j, hx, he => by
    cases v <;> simp only [Exact] at hx
    · simp only [encJ, Option.some.injEq] at he
      subst he
      refine ⟨by unfold Ints; exact True.intro, ?_⟩
      unfold fix norm
      simp only [decJ]
    · rename_i l
      simp only [encJ] at he
      cases hl : encElems (encJ s) l with
      | none => rw [hl] at he; cases he
      | some js =>
        rw [hl] at he
        cases he
        have hws : wf s = true := by rw [wf] at hw; exact hw
        obtain ⟨h1, h2⟩ := elems_back (encJ s) (decJ s) (zero s) (norm s) l js (fun v hv j hj => dec_enc s hws v j (hx v hv) hj) hl
        refine ⟨?_, ?_⟩
        · unfold Ints
          rw [intsElems_iff]
          exact h1
        · unfold fix norm
          rw [fixElems_map]
          simp only [decJ, zero, elemsOf, h2, Option.map_some]
  | .array n, _, v, j, hx, he => by
    cases v <;> simp only [Exact] at hx
    rename_i b
    simp only [encJ, Option.some.injEq] at he
    subst he hx
    have hb := bytes_back b (List.replicate b.length 0)
    refine ⟨?_, ?_⟩
    · unfold Ints
      rw [intsElems_iff]
      exact hb.1
    · unfold fix norm
      simp only [decJ, zero, bytesOf, hb.2, Option.map_some]
  | .ptr s, hw, v, j, hx, he => by
    cases v <;> simp only [Exact] at hx
    · simp only [encJ, Option.some.injEq] at he
      subst he
      refine ⟨by unfold Ints; exact True.intro, ?_⟩
      unfold fix norm
      simp only [decJ, isNull, if_true]
    · rename_i v
      simp only [encJ] at he
      have hws : wf s = true ∧ isNull (fix j) = false := by
        cases s with
        | struct fs => rw [wf] at hw; exact ⟨hw, struct_not_null fs v j he⟩
        | _ => rw [wf.eq_def] at hw; cases hw
      obtain ⟨h1, h2⟩ := dec_enc s hws.1 v j hx he
      refine ⟨h1, ?_⟩
      unfold norm
      simp only [decJ, hws.2, Bool.false_eq_true, if_false, zero, pointee, h2, Option.map_some]
  | .map s, hw, v, j, hx, he => by
    cases v <;> simp only [Exact] at hx
    · simp only [encJ, Option.some.injEq] at he
      subst he
      refine ⟨by unfold Ints; exact True.intro, ?_⟩
      unfold fix norm
      simp only [decJ]
    · rename_i l
      simp only [encJ] at he
      cases hl : encEntries (encJ s) l with
      | none => rw [hl] at he; cases he
      | some js =>
        rw [hl] at he
        cases he
        have hws : wf s = true := by rw [wf] at hw; exact hw
        obtain ⟨h1, h2⟩ := entries_back (encJ s) (decJ s (zero s)) (norm s) l js [] (fun p hp j hj => dec_enc s hws p.2 j (hx p hp) hj) hl
        refine ⟨?_, ?_⟩
        · unfold Ints
          rw [intsMembers_iff]
          exact h1
        · unfold fix norm
          simp only [decJ, zero, entriesOf, h2, Option.map_some]
  | .struct fs, hw, v, j, hx, he => by
    cases v <;> simp only [Exact] at hx
    rename_i vs
    simp only [encJ] at he
    cases hl : encFields fs vs with
    | none => rw [hl] at he; cases he
    | some l =>
      rw [hl] at he
      cases he
      rw [wf] at hw
      simp only [Bool.and_eq_true, decide_eq_true_eq] at hw
      obtain ⟨h1, h2⟩ := dec_encs fs hw.2 vs l hx hl
      have h3 := h2 [] [] [] rfl rfl hw.1
      simp only [List.nil_append] at h3
      refine ⟨?_, ?_⟩
      · unfold Ints
        rw [intsMembers_iff]
        exact h1
      · unfold fix norm
        simp only [decJ, zero, fieldsOf, h3, Option.map_some]

/-- The same for the fields of a struct, after some others. -/
theorem dec_encs : ∀ (fs : List (Bytes × Bool × Shape)), wfs fs = true → ∀ (vs : List V) (l : List (Bytes × J)), Exacts fs vs → encFields fs vs = some l →
    (∀ p ∈ l, Ints p.2) ∧ ∀ (ns : List Bytes) (ds : List (V → J → Option V)) (ws : List V), ns.length = ws.length → ds.length = ws.length → (ns ++ names fs).Nodup →
      decFields (ns ++ names fs) (setField (ds ++ decJs fs)) (ws ++ zeros fs) (fixMembers l) = some (ws ++ norms fs vs)
  | [], _, vs, l, hx, he => by
    cases vs with
    | nil =>
      simp only [encFields, Option.some.injEq] at he
      subst he
      refine ⟨(fun p hp => by cases hp), ?_⟩
      intro ns ds ws _ _ _
      simp only [fixMembers, decFields, zeros, norms]
    | cons v vs => simp only [Exacts] at hx
  | (n, om, s) :: fs, hw, vs, l, hx, he => by
    cases vs with
    | nil => simp only [Exacts] at hx
    | cons v vs =>
      simp only [Exacts] at hx
      rw [wfs] at hw
      simp only [Bool.and_eq_true] at hw
      obtain ⟨⟨hn, hs⟩, hfs⟩ := hw
      have hnu : fixUtf8 n = n := fix_ascii n (fun c hc => of_decide_eq_true (List.all_eq_true.1 hn c hc))
      simp only [encFields] at he
      have shift : ∀ (ns : List Bytes) (ds : List (V → J → Option V)) (ws : List V) (w : V) (l' : List (Bytes × J)), ns.length = ws.length → ds.length = ws.length →
          (ns ++ names ((n, om, s) :: fs)).Nodup →
          (∀ (ns : List Bytes) (ds : List (V → J → Option V)) (ws : List V), ns.length = ws.length → ds.length = ws.length → (ns ++ names fs).Nodup →
            decFields (ns ++ names fs) (setField (ds ++ decJs fs)) (ws ++ zeros fs) (fixMembers l') = some (ws ++ norms fs vs)) →
          decFields (ns ++ names ((n, om, s) :: fs)) (setField (ds ++ decJs ((n, om, s) :: fs))) (ws ++ w :: zeros fs) (fixMembers l') = some (ws ++ w :: norms fs vs) := by
        intro ns ds ws w l' h1 h2 h3 ih
        have := ih (ns ++ [n]) (ds ++ [decJ s]) (ws ++ [w]) (by simp [h1]) (by simp [h2]) (by simpa [names] using h3)
        simpa [names, decJs] using this
      split at he
      · rename_i hom
        obtain ⟨i1, i2⟩ := dec_encs fs hfs vs l hx.2 he
        refine ⟨i1, ?_⟩
        intro ns ds ws h1 h2 h3
        rw [zeros, norms, if_pos hom]
        exact shift ns ds ws _ l h1 h2 h3 i2
      · rename_i hom
        split at he
        · rename_i j l' hj hl'
          cases he
          obtain ⟨i1, i2⟩ := dec_encs fs hfs vs l' hx.2 hl'
          obtain ⟨k1, k2⟩ := dec_enc s hs v j hx.1 hj
          refine ⟨?_, ?_⟩
          · intro p hp
            rcases List.mem_cons.1 hp with rfl | hp
            · exact k1
            · exact i1 p hp
          · intro ns ds ws h1 h2 h3
            rw [fixMembers, zeros, norms, if_neg hom, hnu]
            unfold decFields
            have hidx : fieldIndex (ns ++ names ((n, om, s) :: fs)) n = some ns.length := index_at ns n (names fs) h3
            rw [hidx]
            dsimp only
            have hset : setField (ds ++ decJs ((n, om, s) :: fs)) ns.length (fix j) (ws ++ zero s :: zeros fs) = some (ws ++ norm s v :: zeros fs) := by
              unfold setField
              have e1 : (ds ++ decJs ((n, om, s) :: fs))[ns.length]? = some (decJ s) := by
                rw [decJs, h1, ← h2]
                simp
              have e2 : (ws ++ zero s :: zeros fs)[ns.length]? = some (zero s) := by
                rw [h1]
                simp
              rw [e1, e2]
              dsimp only
              rw [k2, h1]
              simp
            rw [hset]
            dsimp only
            exact shift ns ds ws _ l' h1 h2 h3 i2
        · cases he
end

/-! ## What is read is exact -/

theorem parseInt64_range {x : Bytes} {i : Int} (h : Rows.parseInt64 x = some i) : -(2 ^ 63) ≤ i ∧ i < 2 ^ 63 := by
  unfold Rows.parseInt64 at h
  dsimp only at h
  repeat' split at h
  all_goals first
    | cases h; done
    | (injection h with h; omega)

mutual
/-- The value belongs to the type, and its times are as said. -/
def Fits (T : Time → Prop) : Shape → V → Prop
  | .int, .int i => -(2 ^ 63) ≤ i ∧ i < 2 ^ 63
  | .uint, .uint n => n < 2 ^ 64
  | .bool, .bool _ => True
  | .str, .str _ => True
  | .bytes, .bytes _ => True
  | .time, .time t => T t
  | .slice _, .nilSlice => True
  | .slice s, .slice l => ∀ v ∈ l, Fits T s v
  | .array n, .array b => b.length = n
  | .ptr _, .nilPtr => True
  | .ptr s, .ptr v => Fits T s v
  | .map _, .nilMap => True
  | .map s, .map l => ∀ p ∈ l, Fits T s p.2
  | .struct fs, .struct vs => Fitss T fs vs
  | _, _ => False

def Fitss (T : Time → Prop) : List (Bytes × Bool × Shape) → List V → Prop
  | [], [] => True
  | (_, _, s) :: fs, v :: vs => Fits T s v ∧ Fitss T fs vs
  | _, _ => False
end

mutual
theorem zero_fits (T : Time → Prop) (h0 : T zeroTime) : ∀ s : Shape, Fits T s (zero s)
  | .int => by rw [zero, Fits]; decide
  | .uint => by rw [zero, Fits]; decide
  | .bool => by rw [zero, Fits]; exact True.intro
  | .str => by rw [zero, Fits]; exact True.intro
  | .bytes => by rw [zero, Fits]; exact True.intro
  | .time => by rw [zero, Fits]; exact h0
  | .slice _ => by rw [zero, Fits]; exact True.intro
  | .array n => by rw [zero, Fits]; exact List.length_replicate
  | .ptr _ => by rw [zero, Fits]; exact True.intro
  | .map _ => by rw [zero, Fits]; exact True.intro
  | .struct fs => by rw [zero, Fits]; exact zeros_fits T h0 fs

theorem zeros_fits (T : Time → Prop) (h0 : T zeroTime) : ∀ fs : List (Bytes × Bool × Shape), Fitss T fs (zeros fs)
  | [] => by rw [zeros, Fitss]; exact True.intro
  | (_, _, s) :: fs => by rw [zeros, Fitss]; exact ⟨zero_fits T h0 s, zeros_fits T h0 fs⟩
end

theorem readElems_exact (d : V → J → Option V) (z : V) (P : V → Prop) (hz : P z) (hd : ∀ o j v, P o → d o j = some v → P v) :
    ∀ (l : List J) (old r : List V), (∀ v ∈ old, P v) → readElems d z old l = some r → ∀ v ∈ r, P v
  | [], old, r, _, h, v, hv => by
    unfold readElems at h
    cases h
    cases hv
  | j :: l, old, r, ho, h, v, hv => by
    unfold readElems at h
    split at h
    · cases h
    · rename_i w hw
      cases hr : readElems d z old.tail l with
      | none => rw [hr] at h; cases h
      | some r' =>
        rw [hr] at h
        cases h
        have hh : P (old.headD z) := by
          cases old with
          | nil => exact hz
          | cons a old => exact ho a (by simp)
        rcases List.mem_cons.1 hv with rfl | hv
        · exact hd _ _ _ hh hw
        · exact readElems_exact d z P hz hd l old.tail r' (fun v hv => ho v (List.mem_of_mem_tail hv)) hr v hv

theorem decFields_inv {α : Type} (P : α → Prop) (names : List Bytes) (set : Nat → J → α → Option α) (hs : ∀ i j c c', P c → set i j c = some c' → P c') :
    ∀ (l : List (Bytes × J)) (c c' : α), P c → decFields names set c l = some c' → P c'
  | [], c, c', hc, h => by
    unfold decFields at h
    cases h
    exact hc
  | (k, v) :: l, c, c', hc, h => by
    unfold decFields at h
    split at h
    · exact decFields_inv P names set hs l c c' hc h
    · split at h
      · cases h
      · rename_i c2 h2
        exact decFields_inv P names set hs l c2 c' (hs _ _ _ _ hc h2) h

/-- The fields of a struct of a type. -/
theorem fits_fieldsOf (T : Time → Prop) (fs : List (Bytes × Bool × Shape)) (v : V) (h : Fits T (.struct fs) v) : v = .struct (fieldsOf v) ∧ Fitss T fs (fieldsOf v) := by
  cases v with
  | struct l =>
    rw [Fits] at h
    exact ⟨rfl, h⟩
  | _ => rw [Fits.eq_def] at h; exact h.elim

theorem fits_elemsOf (T : Time → Prop) (s : Shape) (v : V) (h : Fits T (.slice s) v) : ∀ x ∈ elemsOf v, Fits T s x := by
  cases v with
  | slice l =>
    rw [Fits] at h
    exact h
  | nilSlice => intro x hx; cases hx
  | _ => rw [Fits.eq_def] at h; exact h.elim

theorem readBytes_length : ∀ (n : Nat) (old : Bytes) (l : List J) (b : Bytes), readBytes n old l = some b → b.length = n
  | 0, _, _, b, h => by rw [readBytes] at h; cases h; rfl
  | n + 1, _, [], b, h => by rw [readBytes] at h; cases h; exact List.length_replicate
  | n + 1, old, j :: js, b, h => by
    rw [readBytes] at h
    split at h
    · cases h
    · cases hr : readBytes n old.tail js with
      | none => rw [hr] at h; cases h
      | some r =>
        rw [hr] at h
        cases h
        rw [List.length_cons, readBytes_length n old.tail js r hr]

theorem putEntry_mem {P : V → Prop} (k : Bytes) (v : V) (hv : P v) : ∀ m : List (Bytes × V), (∀ p ∈ m, P p.2) → ∀ p ∈ putEntry k v m, P p.2
  | [], _, p, hp => by
    rw [putEntry] at hp
    rw [List.mem_singleton.1 hp]
    exact hv
  | (k', v') :: m, hm, p, hp => by
    rw [putEntry] at hp
    split at hp
    · rcases List.mem_cons.1 hp with rfl | hp
      · exact hv
      · exact hm p hp
    · split at hp
      · rcases List.mem_cons.1 hp with rfl | hp
        · exact hv
        · exact hm p (by simp [hp])
      · rcases List.mem_cons.1 hp with rfl | hp
        · exact hm _ (by simp)
        · exact putEntry_mem k v hv m (fun p hp => hm p (by simp [hp])) p hp

theorem readEntries_mem {P : V → Prop} (d : J → Option V) (hd : ∀ j v, d j = some v → P v) : ∀ (l : List (Bytes × J)) (m r : List (Bytes × V)), (∀ p ∈ m, P p.2) → readEntries d m l = some r → ∀ p ∈ r, P p.2
  | [], m, r, hm, h => by rw [readEntries] at h; cases h; exact hm
  | (k, j) :: l, m, r, hm, h => by
    rw [readEntries] at h
    split at h
    · cases h
    · rename_i v hv
      exact readEntries_mem d hd l _ r (putEntry_mem k v (hd j v hv) m hm) h

theorem fits_entriesOf (T : Time → Prop) (s : Shape) (v : V) (h : Fits T (.map s) v) : ∀ p ∈ entriesOf v, Fits T s p.2 := by
  cases v with
  | map l =>
    rw [Fits] at h
    exact h
  | nilMap => intro x hx; cases hx
  | _ => rw [Fits.eq_def] at h; exact h.elim

theorem fits_pointee (T : Time → Prop) (s : Shape) (z v : V) (hz : Fits T s z) (h : Fits T (.ptr s) v) : Fits T s (pointee z v) := by
  cases v with
  | ptr v =>
    rw [Fits] at h
    exact h
  | _ => exact hz

mutual
theorem dec_fits (T : Time → Prop) (h0 : T zeroTime) (hT : ∀ x t, parseTime x = some t → T t) : ∀ (s : Shape) (old : V) (j : J) (v : V), Fits T s old → decJ s old j = some v → Fits T s v
  | .int, old, j, v, ho, h => by
    cases j with
    | null => simp only [decJ] at h; cases h; exact ho
    | num lit =>
      simp only [decJ] at h
      cases hp : Rows.parseInt64 lit with
      | none => rw [hp] at h; cases h
      | some i =>
        rw [hp] at h
        cases h
        rw [Fits]
        exact parseInt64_range hp
    | _ => simp only [decJ] at h; cases h
  | .uint, old, j, v, ho, h => by
    cases j with
    | null => simp only [decJ] at h; cases h; exact ho
    | num lit =>
      simp only [decJ, decUint] at h
      split at h
      · rename_i n hn
        split at h
        · rename_i hlt
          cases h
          rw [Fits]
          exact hlt
        · cases h
      · cases h
    | _ => simp only [decJ] at h; cases h
  | .bool, old, j, v, ho, h => by
    cases j with
    | null => simp only [decJ] at h; cases h; exact ho
    | bool b => simp only [decJ] at h; cases h; rw [Fits]; exact True.intro
    | _ => simp only [decJ] at h; cases h
  | .str, old, j, v, ho, h => by
    cases j with
    | null => simp only [decJ] at h; cases h; exact ho
    | str s => simp only [decJ] at h; cases h; rw [Fits]; exact True.intro
    | _ => simp only [decJ] at h; cases h
  | .bytes, old, j, v, ho, h => by
    cases j with
    | null => simp only [decJ] at h; cases h; rw [Fits]; exact True.intro
    | str s =>
      simp only [decJ] at h
      cases hp : Rows.decodeField s with
      | none => rw [hp] at h; cases h
      | some b =>
        rw [hp] at h
        cases h
        rw [Fits]
        exact True.intro
    | _ => simp only [decJ] at h; cases h
  | .time, old, j, v, ho, h => by
    cases j with
    | null => simp only [decJ] at h; cases h; exact ho
    | str s =>
      simp only [decJ] at h
      cases hp : parseTime s with
      | none => rw [hp] at h; cases h
      | some t =>
        rw [hp] at h
        cases h
        rw [Fits]
        exact hT _ _ hp
    | _ => simp only [decJ] at h; cases h
  | .slice s, old, j, v, ho, h => by
    cases j with
    | null => simp only [decJ] at h; cases h; rw [Fits]; exact True.intro
    | arr l =>
      simp only [decJ] at h
      cases hp : readElems (decJ s) (zero s) (elemsOf old) l with
      | none => rw [hp] at h; cases h
      | some r =>
        rw [hp] at h
        cases h
        rw [Fits]
        exact readElems_exact (decJ s) (zero s) (Fits T s) (zero_fits T h0 s) (fun o j v => dec_fits T h0 hT s o j v) l (elemsOf old) r (fits_elemsOf T s old ho) hp
    | _ => simp only [decJ] at h; cases h
  | .array n, old, j, v, ho, h => by
    cases j with
    | null => simp only [decJ] at h; cases h; exact ho
    | arr l =>
      simp only [decJ] at h
      cases hp : readBytes n (bytesOf old) l with
      | none => rw [hp] at h; cases h
      | some r =>
        rw [hp] at h
        cases h
        rw [Fits]
        exact readBytes_length _ _ _ _ hp
    | _ => simp only [decJ] at h; cases h
  | .ptr s, old, j, v, ho, h => by
    rw [decJ] at h
    split at h
    · cases h; rw [Fits]; exact True.intro
    · cases hp : decJ s (pointee (zero s) old) j with
      | none => rw [hp] at h; cases h
      | some r =>
        rw [hp] at h
        cases h
        rw [Fits]
        exact dec_fits T h0 hT s _ j r (fits_pointee T s _ old (zero_fits T h0 s) ho) hp
  | .map s, old, j, v, ho, h => by
    cases j with
    | null => simp only [decJ] at h; cases h; rw [Fits]; exact True.intro
    | obj l =>
      simp only [decJ] at h
      cases hp : readEntries (decJ s (zero s)) (entriesOf old) l with
      | none => rw [hp] at h; cases h
      | some r =>
        rw [hp] at h
        cases h
        rw [Fits]
        exact readEntries_mem (P := Fits T s) (decJ s (zero s)) (fun j v => dec_fits T h0 hT s _ j v (zero_fits T h0 s)) l _ r (fits_entriesOf T s old ho) hp
    | _ => simp only [decJ] at h; cases h
  | .struct fs, old, j, v, ho, h => by
    cases j with
    | null => simp only [decJ] at h; cases h; exact ho
    | obj l =>
      simp only [decJ] at h
      cases hp : decFields (names fs) (setField (decJs fs)) (fieldsOf old) l with
      | none => rw [hp] at h; cases h
      | some r =>
        rw [hp] at h
        cases h
        rw [Fits]
        refine decFields_inv (Fitss T fs) (names fs) (setField (decJs fs)) ?_ l (fieldsOf old) r (fits_fieldsOf T fs old ho).2 hp
        intro i j c c' hc hs
        exact decs_fits T h0 hT fs i j c c' hc hs
    | _ => simp only [decJ] at h; cases h

theorem decs_fits (T : Time → Prop) (h0 : T zeroTime) (hT : ∀ x t, parseTime x = some t → T t) : ∀ (fs : List (Bytes × Bool × Shape)) (i : Nat) (j : J) (vs vs' : List V), Fitss T fs vs → setField (decJs fs) i j vs = some vs' → Fitss T fs vs'
  | [], i, j, vs, vs', _, h => by
    unfold setField decJs at h
    simp at h
  | (n, b, s) :: fs, i, j, [], vs', he, _ => by
    rw [Fitss.eq_def] at he
    exact he.elim
  | (n, b, s) :: fs, i, j, v :: vs, vs', he, h => by
    rw [Fitss] at he
    cases i with
    | zero =>
      simp only [setField, decJs, List.getElem?_cons_zero] at h
      cases hp : decJ s v j with
      | none => rw [hp] at h; cases h
      | some w =>
        rw [hp] at h
        cases h
        dsimp only
        rw [List.set_cons_zero, Fitss]
        exact ⟨dec_fits T h0 hT s v j w he.1 hp, he.2⟩
    | succ i =>
      have ih := decs_fits T h0 hT fs i j vs
      simp only [setField, decJs, List.getElem?_cons_succ] at h
      simp only [setField] at ih
      split at h
      · rename_i d old hd ho
        simp only [hd, ho] at ih
        cases hp : d old j with
        | none => rw [hp] at h; cases h
        | some w =>
          rw [hp] at h ih
          cases h
          dsimp only
          rw [List.set_cons_succ, Fitss]
          exact ⟨he.1, ih _ he.2 rfl⟩
      · cases h
end

mutual
theorem exact_of_fits (T : Time → Prop) (hT : ∀ t, T t → t.Whole) : ∀ (s : Shape) (v : V), Fits T s v → Exact s v
  | .int, v, h => by cases v <;> simp only [Fits, Exact] at h ⊢ <;> exact h
  | .uint, v, h => by cases v <;> simp only [Fits, Exact] at h ⊢ <;> exact h
  | .bool, v, h => by cases v <;> simp only [Fits, Exact] at h ⊢
  | .str, v, h => by cases v <;> simp only [Fits, Exact] at h ⊢
  | .bytes, v, h => by cases v <;> simp only [Fits, Exact] at h ⊢
  | .time, v, h => by
    cases v <;> simp only [Fits, Exact] at h ⊢
    exact hT _ h
  | .slice s, v, h => by
    cases v <;> simp only [Fits, Exact] at h ⊢
    intro x hx
    exact exact_of_fits T hT s x (h x hx)
  | .array n, v, h => by cases v <;> simp only [Fits, Exact] at h ⊢ <;> exact h
  | .ptr s, v, h => by
    cases v <;> simp only [Fits, Exact] at h ⊢
    exact exact_of_fits T hT s _ h
  | .map s, v, h => by
    cases v <;> simp only [Fits, Exact] at h ⊢
    intro p hp
    exact exact_of_fits T hT s p.2 (h p hp)
  | .struct fs, v, h => by
    cases v <;> simp only [Fits, Exact] at h ⊢
    exact exacts_of_fits T hT fs _ h

theorem exacts_of_fits (T : Time → Prop) (hT : ∀ t, T t → t.Whole) : ∀ (fs : List (Bytes × Bool × Shape)) (vs : List V), Fitss T fs vs → Exacts fs vs
  | [], [], _ => by rw [Exacts]; exact True.intro
  | [], _ :: _, h => by rw [Fitss.eq_def] at h; exact h.elim
  | (_, _, _) :: _, [], h => by rw [Fitss.eq_def] at h; exact h.elim
  | (_, _, s) :: fs, v :: vs, h => by
    rw [Fitss] at h
    rw [Exacts]
    exact ⟨exact_of_fits T hT s v h.1, exacts_of_fits T hT fs vs h.2⟩
end

theorem elems_writes (e : V → Option J) : ∀ l : List V, (∀ v ∈ l, ∃ j, e v = some j) → ∃ js, encElems e l = some js
  | [], _ => ⟨[], rfl⟩
  | v :: l, h => by
    obtain ⟨j, hj⟩ := h v (by simp)
    obtain ⟨js, hjs⟩ := elems_writes e l (fun x hx => h x (by simp [hx]))
    exact ⟨j :: js, by rw [encElems, hj, hjs]⟩

theorem entries_writes (e : V → Option J) : ∀ l : List (Bytes × V), (∀ p ∈ l, ∃ j, e p.2 = some j) → ∃ js, encEntries e l = some js
  | [], _ => ⟨[], rfl⟩
  | (k, v) :: l, h => by
    obtain ⟨j, hj⟩ := h (k, v) (by simp)
    obtain ⟨js, hjs⟩ := entries_writes e l (fun x hx => h x (by simp [hx]))
    exact ⟨(k, j) :: js, by rw [encEntries, hj, hjs]⟩

mutual
theorem fits_writes (T : Time → Prop) (hT : ∀ t, T t → timeText t ≠ none) : ∀ (s : Shape) (v : V), Fits T s v → ∃ j, encJ s v = some j
  | .int, v, h => by cases v <;> simp only [Fits] at h; exact ⟨_, by rw [encJ]⟩
  | .uint, v, h => by cases v <;> simp only [Fits] at h; exact ⟨_, by rw [encJ]⟩
  | .bool, v, h => by cases v <;> simp only [Fits] at h; exact ⟨_, by rw [encJ]⟩
  | .str, v, h => by cases v <;> simp only [Fits] at h; exact ⟨_, by rw [encJ]⟩
  | .bytes, v, h => by
    cases v <;> simp only [Fits] at h
    rename_i b
    cases b <;> exact ⟨_, by rw [encJ]⟩
  | .time, v, h => by
    cases v <;> simp only [Fits] at h
    rename_i t
    rw [encJ]
    cases ht : timeText t with
    | none => exact (hT t h ht).elim
    | some x => exact ⟨_, rfl⟩
  | .slice s, v, h => by
    cases v <;> simp only [Fits] at h
    · exact ⟨_, by rw [encJ]⟩
    · rename_i l
      obtain ⟨js, hjs⟩ := elems_writes (encJ s) l (fun x hx => fits_writes T hT s x (h x hx))
      exact ⟨_, by rw [encJ, hjs]; rfl⟩
  | .array n, v, h => by cases v <;> simp only [Fits] at h; exact ⟨_, by rw [encJ]⟩
  | .ptr s, v, h => by
    cases v <;> simp only [Fits] at h
    · exact ⟨_, by rw [encJ]⟩
    · obtain ⟨j, hj⟩ := fits_writes T hT s _ h
      exact ⟨j, by rw [encJ, hj]⟩
  | .map s, v, h => by
    cases v <;> simp only [Fits] at h
    · exact ⟨_, by rw [encJ]⟩
    · rename_i l
      obtain ⟨js, hjs⟩ := entries_writes (encJ s) l (fun x hx => fits_writes T hT s x.2 (h x hx))
      exact ⟨_, by rw [encJ, hjs]; rfl⟩
  | .struct fs, v, h => by
    cases v <;> simp only [Fits] at h
    rename_i vs
    obtain ⟨l, hl⟩ := fitss_writes T hT fs vs h
    exact ⟨_, by rw [encJ, hl]; rfl⟩

theorem fitss_writes (T : Time → Prop) (hT : ∀ t, T t → timeText t ≠ none) : ∀ (fs : List (Bytes × Bool × Shape)) (vs : List V), Fitss T fs vs → ∃ l, encFields fs vs = some l
  | [], [], _ => ⟨[], by rw [encFields]⟩
  | [], _ :: _, h => by rw [Fitss.eq_def] at h; exact h.elim
  | (_, _, _) :: _, [], h => by rw [Fitss.eq_def] at h; exact h.elim
  | (n, om, s) :: fs, v :: vs, h => by
    rw [Fitss] at h
    obtain ⟨j, hj⟩ := fits_writes T hT s v h.1
    obtain ⟨l, hl⟩ := fitss_writes T hT fs vs h.2
    rw [encFields]
    split
    · exact ⟨l, hl⟩
    · exact ⟨(n, j) :: l, by rw [hj, hl]⟩
end

end Fpki.Reflect
