import Verif.Model.PayloadApi
import Verif.Lemmas.CsvLoad
import Verif.Props.DbHist
import Mathlib.Data.List.Induction
import Mathlib.Tactic.ByContra

/-!
# C78: the payload API
-/
namespace Fpki.PayloadApi
open Fpki.Db (DB Cert Hist hist_inv)
open Fpki.CsvLoad (base64 decodeGroups decode_base64 base64_special)

/-! ## Specification -/

/-- `p` is stored under the ID in a table that the route looks at. -/
def StoredIn (db : DB) (k : Kind) (id p : Bytes) : Prop :=
  match k with
  | .certificates => ∃ c ∈ db.certs, c.id = id ∧ c.payload = p
  | .policies => ∃ c ∈ db.policies, c.id = id ∧ c.payload = p
  | .both => (∃ c ∈ db.certs, c.id = id ∧ c.payload = p) ∨ ∃ c ∈ db.policies, c.id = id ∧ c.payload = p

/-- The rows of a query, in any order. -/
def Delivers (db : DB) (k : Kind) (query : List Bytes → List (Bytes × Bytes)) : Prop :=
  ∀ ids, (query ids).Perm (selected db k ids)

/-- The rows of a query, in any order, up to an error. -/
def DeliversSome (db : DB) (k : Kind) (query : List Bytes → List (Bytes × Bytes)) : Prop :=
  ∀ ids, ∃ all, all.Perm (selected db k ids) ∧ query ids <+: all

/-! ## Hexadecimal -/

theorem hexVal_digit : ∀ n < 16, hexVal (hexDigit n) = some n := by decide

theorem ofNat_split (x : Byte) : UInt8.ofNat (x.toNat / 16 * 16 + x.toNat % 16) = x := by
  rw [show x.toNat / 16 * 16 + x.toNat % 16 = x.toNat by omega]; exact UInt8.ofNat_toNat

theorem hexEncode_length (b : Bytes) : (hexEncode b).length = 2 * b.length := by
  induction b with
  | nil => rfl
  | cons x r ih =>
    simp only [hexEncode, List.flatMap_cons, List.length_append, List.length_cons, List.length_nil] at ih ⊢
    omega

theorem hexDecode_encode : ∀ b : Bytes, hexDecode (hexEncode b) = some b
  | [] => rfl
  | x :: r => by
    have ih := hexDecode_encode r
    have hx := x.toNat_lt
    show hexDecode (hexDigit (x.toNat / 16) :: hexDigit (x.toNat % 16) :: hexEncode r) = _
    rw [hexDecode, hexVal_digit _ (by omega), hexVal_digit _ (by omega), ih]
    simp only [ofNat_split]

/-- The lower case of a hexadecimal digit. -/
def lower (c : Byte) : Byte := if 65 ≤ c.toNat ∧ c.toNat ≤ 70 then UInt8.ofNat (c.toNat + 32) else c

theorem digit_val : ∀ c : Byte, ∀ n, hexVal c = some n → n < 16 ∧ hexDigit n = lower c := by
  intro c n h
  have key : ∀ m : Fin 256, ∀ n < 16, hexVal (UInt8.ofNat m.val) = some n → hexDigit n = lower (UInt8.ofNat m.val) := by decide +kernel
  have hlt : n < 16 := by
    unfold hexVal at h
    split at h
    · injection h; omega
    · split at h
      · injection h; omega
      · split at h
        · injection h; omega
        · cases h
  have := key ⟨c.toNat, c.toNat_lt⟩ n hlt
  simp only [UInt8.ofNat_toNat] at this
  exact ⟨hlt, this h⟩

theorem hexDecode_some : ∀ (h b : Bytes), hexDecode h = some b → hexEncode b = h.map lower
  | [], b, e => by cases e; rfl
  | [_], b, e => by cases e
  | x :: y :: r, b, e => by
    rw [hexDecode] at e
    split at e
    · next u v t h1 h2 h3 =>
      cases e
      have := hexDecode_some r t h3
      obtain ⟨l1, d1⟩ := digit_val _ _ h1
      obtain ⟨l2, d2⟩ := digit_val _ _ h2
      have e1 : (UInt8.ofNat (u * 16 + v)).toNat = u * 16 + v := by
        rw [UInt8.toNat_ofNat']; omega
      show hexDigit ((UInt8.ofNat (u * 16 + v)).toNat / 16) :: hexDigit ((UInt8.ofNat (u * 16 + v)).toNat % 16) :: hexEncode t = _
      rw [e1, show (u * 16 + v) / 16 = u by omega, show (u * 16 + v) % 16 = v by omega, d1, d2, this]; rfl
    · cases e

theorem hexDecode_isSome : ∀ (h : Bytes), h.length % 2 = 0 → (∀ c ∈ h, (hexVal c).isSome) → (hexDecode h).isSome
  | [], _, _ => rfl
  | [_], e, _ => by cases e
  | x :: y :: r, e, hc => by
    have ih := hexDecode_isSome r (by simp only [List.length_cons] at e; omega) (fun c h => hc c (by simp [h]))
    obtain ⟨t, ht⟩ := Option.isSome_iff_exists.1 ih
    obtain ⟨u, hu⟩ := Option.isSome_iff_exists.1 (hc x (by simp))
    obtain ⟨v, hv⟩ := Option.isSome_iff_exists.1 (hc y (by simp))
    rw [hexDecode, hu, hv, ht]; rfl

theorem hexDecode_digits : ∀ (h b : Bytes), hexDecode h = some b → ∀ c ∈ h, (hexVal c).isSome
  | [], b, e => by intro c hc; cases hc
  | [_], b, e => by cases e
  | x :: y :: r, b, e => by
    rw [hexDecode] at e
    split at e
    · next u v t h1 h2 h3 =>
      intro c hc
      simp only [List.mem_cons] at hc
      rcases hc with rfl | rfl | hc
      · rw [h1]; rfl
      · rw [h2]; rfl
      · exact hexDecode_digits r t h3 c hc
    · cases e

/-! ## The list of IDs -/

/-- Piece number `i`. -/
def piece (h : Bytes) (i : Nat) : Bytes := (h.drop (i * idSize * 2)).take ((i + 1) * idSize * 2 - i * idSize * 2)

theorem piece_eq (h : Bytes) (i : Nat) : piece h i = (h.drop (i * 64)).take 64 := by
  unfold piece idSize
  rw [show i * 32 * 2 = i * 64 by omega, show (i + 1) * 32 * 2 - i * 64 = 64 by omega]

theorem parseIds_eq (h : Bytes) : parseIds h = if h.length % 64 ≠ 0 then none else (List.range (h.length / 64)).mapM fun i => hexDecode ((h.drop (i * 64)).take 64) := by
  unfold parseIds
  have : (fun i => hexDecode ((h.drop (i * idSize * 2)).take ((i + 1) * idSize * 2 - i * idSize * 2))) = fun i => hexDecode ((h.drop (i * 64)).take 64) := by
    funext i; exact congrArg hexDecode (piece_eq h i)
  rw [this, show idSize * 2 = 64 from rfl, show h.length / idSize / 2 = h.length / 64 by rw [Nat.div_div_eq_div_mul]; rfl]

theorem mapM_range_shift (f : Nat → Option α) (n : Nat) : (List.range (n + 1)).mapM f = (f 0).bind fun a => ((List.range n).mapM fun i => f (i + 1)).map (a :: ·) := by
  rw [List.range_succ_eq_map, List.mapM_cons, List.mapM_map]
  cases f 0 with
  | none => rfl
  | some a =>
    show ((List.range n).mapM (f ∘ Nat.succ)).bind _ = _
    show ((List.range n).mapM fun i => f (i + 1)).bind _ = _
    cases (List.range n).mapM fun i => f (i + 1) <;> rfl

/-- The loop, one ID at a time. -/
theorem parseIds_cons (h t : Bytes) (hl : h.length = 64) : parseIds (h ++ t) = (hexDecode h).bind fun a => (parseIds t).map (a :: ·) := by
  rw [parseIds_eq, parseIds_eq]
  have e1 : (h ++ t).length % 64 = t.length % 64 := by rw [List.length_append, hl]; omega
  have e2 : (h ++ t).length / 64 = t.length / 64 + 1 := by rw [List.length_append, hl]; omega
  rw [e1, e2]
  by_cases hm : t.length % 64 ≠ 0
  · rw [if_pos hm, if_pos hm]; cases hexDecode h <;> rfl
  · rw [if_neg hm, if_neg hm, mapM_range_shift]
    have e3 : ((h ++ t).drop (0 * 64)).take 64 = h := by
      rw [Nat.zero_mul, List.drop_zero, List.take_append_of_le_length (by omega), List.take_of_length_le (by omega)]
    have e4 : ∀ i : Nat, ((h ++ t).drop ((i + 1) * 64)).take 64 = (t.drop (i * 64)).take 64 := by
      intro i
      rw [show (i + 1) * 64 = h.length + i * 64 by omega, List.drop_append, List.drop_of_length_le (by omega)]
      simp
    rw [e3]
    simp only [e4]

theorem parseIds_nil : parseIds [] = some [] := rfl

/-- What a client sends is read back, in the same order, with all repetitions. -/
theorem C78_request_roundtrip : ∀ ids : List Bytes, (∀ i ∈ ids, i.length = 32) → parseIds (ids.flatMap hexEncode) = some ids
  | [], _ => rfl
  | i :: r, h => by
    rw [List.flatMap_cons, parseIds_cons _ _ (by rw [hexEncode_length, h i (by simp)]), hexDecode_encode,
      C78_request_roundtrip r (fun j hj => h j (by simp [hj]))]
    rfl

example : ∀ i ∈ [List.replicate 32 (7 : Byte), List.replicate 32 255, List.replicate 32 7], i.length = 32 := by decide

/-- A parameter is accepted exactly if its length is a multiple of 64 and it has only hexadecimal digits, and then the IDs are those digits. -/
theorem C78_request_accepted (h : Bytes) :
    (parseIds h).isSome ↔ (h.length % 64 = 0 ∧ ∀ c ∈ h, (hexVal c).isSome) := by
  have key : ∀ n (h : Bytes), h.length = n * 64 → ((parseIds h).isSome ↔ ∀ c ∈ h, (hexVal c).isSome) := by
    intro n
    induction n with
    | zero =>
      intro h hl
      have : h = [] := List.length_eq_zero_iff.1 (by omega)
      subst this
      simp [parseIds_nil]
    | succ n ih =>
      intro h hl
      have hs : h = h.take 64 ++ h.drop 64 := (List.take_append_drop 64 h).symm
      have h64 : (h.take 64).length = 64 := by rw [List.length_take]; omega
      have := ih (h.drop 64) (by rw [List.length_drop]; omega)
      rw [hs, parseIds_cons _ _ h64]
      constructor
      · intro hx c hc
        cases hd : hexDecode (h.take 64) with
        | none => rw [hd] at hx; cases hx
        | some a =>
          rw [hd] at hx
          rcases List.mem_append.1 hc with hc | hc
          · exact hexDecode_digits _ _ hd c hc
          · refine this.1 ?_ c hc
            simpa using hx
      · intro hx
        obtain ⟨a, ha⟩ := Option.isSome_iff_exists.1 (hexDecode_isSome (h.take 64) (by rw [h64]) (fun c hc => hx c (List.mem_append_left _ hc)))
        have hb := this.2 (fun c hc => hx c (List.mem_append_right _ hc))
        rw [ha]
        simpa using hb
  constructor
  · intro hx
    have hm : h.length % 64 = 0 := by
      by_contra hne
      rw [parseIds_eq, if_pos hne] at hx
      cases hx
    exact ⟨hm, (key (h.length / 64) h (by omega)).1 hx⟩
  · rintro ⟨hm, hc⟩
    exact (key (h.length / 64) h (by omega)).2 hc

theorem parseIds_spec (h : Bytes) (ids : List Bytes) (e : parseIds h = some ids) : ids.flatMap hexEncode = h.map lower ∧ ∀ i ∈ ids, i.length = 32 := by
  have key : ∀ n (h : Bytes) (ids : List Bytes), h.length = n * 64 → parseIds h = some ids → ids.flatMap hexEncode = h.map lower ∧ ∀ i ∈ ids, i.length = 32 := by
    intro n
    induction n with
    | zero =>
      intro h ids hl e
      have : h = [] := List.length_eq_zero_iff.1 (by omega)
      subst this
      rw [parseIds_nil] at e
      cases e
      exact ⟨rfl, by simp⟩
    | succ n ih =>
      intro h ids hl e
      have hs : h = h.take 64 ++ h.drop 64 := (List.take_append_drop 64 h).symm
      have h64 : (h.take 64).length = 64 := by rw [List.length_take]; omega
      rw [hs, parseIds_cons _ _ h64] at e
      cases hd : hexDecode (h.take 64) with
      | none => rw [hd] at e; cases e
      | some a =>
        rw [hd] at e
        cases hr : parseIds (h.drop 64) with
        | none => rw [hr] at e; cases e
        | some t =>
          rw [hr] at e
          cases e
          obtain ⟨i1, i2⟩ := ih _ t (by rw [List.length_drop]; omega) hr
          have i3 := hexDecode_some _ _ hd
          have i4 : a.length = 32 := by
            have := hexEncode_length a
            rw [i3, List.length_map, h64] at this
            omega
          refine ⟨?_, ?_⟩
          · rw [List.flatMap_cons, i1, i3, ← List.map_append, ← hs]
          · intro i hi
            rcases List.mem_cons.1 hi with rfl | hi
            · exact i4
            · exact i2 i hi
  have hm : h.length % 64 = 0 := ((C78_request_accepted h).1 (by rw [e]; rfl)).1
  exact key (h.length / 64) h ids (by omega) e

/-- The IDs that the server looks for are, one after the other, the text that was sent. -/
theorem C78_request_meaning (h : Bytes) (ids : List Bytes) (e : parseIds h = some ids) : ids.flatMap hexEncode = h.map lower ∧ ∀ i ∈ ids, i.length = 32 :=
  parseIds_spec h ids e

/-! ## The rows -/

theorem readRows_append (rows : List (Bytes × Bytes)) (r : Bytes × Bytes) (i : Bytes) :
    readRows (rows ++ [r]) i = if i = r.1 then some r.2 else readRows rows i := by
  unfold readRows
  rw [List.foldl_append]; rfl

theorem readRows_some (rows : List (Bytes × Bytes)) (i p : Bytes) (h : readRows rows i = some p) : (i, p) ∈ rows := by
  induction rows using List.reverseRecOn with
  | nil => cases h
  | append_singleton rows r ih =>
    rw [readRows_append] at h
    split at h
    · next he =>
      injection h with h
      subst he h
      simp
    · exact List.mem_append_left _ (ih h)

theorem readRows_none (rows : List (Bytes × Bytes)) (i : Bytes) (h : readRows rows i = none) : ∀ p, (i, p) ∉ rows := by
  induction rows using List.reverseRecOn with
  | nil => intro p hp; cases hp
  | append_singleton rows r ih =>
    rw [readRows_append] at h
    split at h
    · cases h
    · next hne =>
      intro p hp
      rcases List.mem_append.1 hp with hp | hp
      · exact ih h p hp
      · simp only [List.mem_singleton] at hp
        exact hne (by rw [← hp])

theorem mem_selected (db : DB) (k : Kind) (ids : List Bytes) (i p : Bytes) : (i, p) ∈ selected db k ids ↔ i ∈ ids ∧ StoredIn db k i p := by
  have sel : ∀ t : List Cert, (i, p) ∈ (t.filter fun c => ids.contains c.id).map (fun c => (c.id, c.payload)) ↔ i ∈ ids ∧ ∃ c ∈ t, c.id = i ∧ c.payload = p := by
    intro t
    simp only [List.mem_map, List.mem_filter, List.contains_iff_mem, Prod.mk.injEq]
    constructor
    · rintro ⟨c, ⟨h1, h2⟩, rfl, rfl⟩; exact ⟨h2, c, h1, rfl, rfl⟩
    · rintro ⟨h2, c, h1, rfl, rfl⟩; exact ⟨c, ⟨h1, h2⟩, rfl, rfl⟩
  cases k with
  | certificates => exact sel db.certs
  | policies => exact sel db.policies
  | both =>
    show (i, p) ∈ (_ ++ _ : List (Bytes × Bytes)).eraseDups ↔ _
    rw [List.mem_eraseDups, List.mem_append, sel, sel]
    constructor
    · rintro (⟨h, h'⟩ | ⟨h, h'⟩)
      · exact ⟨h, .inr h'⟩
      · exact ⟨h, .inl h'⟩
    · rintro ⟨h, h' | h'⟩
      · exact .inr ⟨h, h'⟩
      · exact .inl ⟨h, h'⟩

/-! ## The statement -/

theorem inListOk_iff (n : Nat) : inListOk (repeatStmt 1 n) = true ↔ n ≠ 0 := by
  cases n with
  | zero => decide
  | succ n =>
    constructor
    · intro _; omega
    · intro _
      unfold inListOk repeatStmt
      simp only [Nat.sub_self, List.replicate_zero, List.flatten_nil, List.nil_append, bne_iff_ne, ne_eq]
      rw [List.replicate_succ]
      cases n with
      | zero => decide
      | succ n => simp [List.replicate_succ, join]

theorem retrieve_eq {ids : List Bytes} {rows : List (Bytes × Bytes)} (h : ids ≠ []) : retrieve ids rows = some (ids.map (readRows rows)) := by
  unfold retrieve
  rw [if_pos ((inListOk_iff _).2 (by simpa using h))]

/-! ## The body -/

theorem splitComma_append : ∀ (a b : Bytes), (∀ c ∈ a, c ≠ 44) → splitComma (a ++ 44 :: b) = a :: splitComma b
  | [], b, _ => by simp [splitComma]
  | c :: a, b, h => by
    rw [List.cons_append, splitComma, if_neg (h c (by simp)), splitComma_append a b (fun d hd => h d (by simp [hd]))]

theorem splitComma_last : ∀ (a : Bytes), (∀ c ∈ a, c ≠ 44) → splitComma a = [a]
  | [], _ => rfl
  | c :: a, h => by rw [splitComma, if_neg (h c (by simp)), splitComma_last a (fun d hd => h d (by simp [hd]))]

theorem splitComma_join : ∀ (l : List Bytes), l ≠ [] → (∀ s ∈ l, ∀ c ∈ s, c ≠ 44) → splitComma (join [44] l) = l
  | [], h, _ => absurd rfl h
  | [x], _, h => splitComma_last x (h x (by simp))
  | x :: y :: r, _, h => by
    rw [join, List.append_assoc]
    show splitComma (x ++ 44 :: join [44] (y :: r)) = _
    rw [splitComma_append _ _ (h x (by simp)), splitComma_join (y :: r) (by simp) (fun s hs => h s (by simp [hs]))]

theorem base64_chars (b : Bytes) : ∀ c ∈ base64 b, c ≠ 44 := by
  intro c hc he
  subst he
  have := base64_special b 44 hc
  revert this
  decide

theorem jsonItem_chars (o : Option Bytes) : ∀ c ∈ jsonItem o, c ≠ 44 := by
  cases o with
  | none => decide
  | some b =>
    intro c hc
    simp only [jsonItem, List.mem_append, List.mem_singleton] at hc
    rcases hc with (rfl | hc) | rfl
    · decide
    · exact base64_chars b c hc
    · decide

theorem readItem_json (o : Option Bytes) : readItem (jsonItem o) = some o := by
  cases o with
  | none => rfl
  | some b =>
    unfold readItem jsonItem
    rw [if_neg (by simp), if_pos ⟨by simp, rfl, by rw [List.getLast?_append]; rfl⟩]
    have : (([34] ++ base64 b ++ [34] : Bytes).drop 1).dropLast = base64 b := by
      simp
    rw [this, decode_base64]; rfl

theorem mapM_readItem (l : List (Option Bytes)) : (l.map jsonItem).mapM readItem = some l := by
  induction l with
  | nil => rfl
  | cons o r ih => rw [List.map_cons, List.mapM_cons, readItem_json, ih]; rfl

theorem join_ne_nil (o : Option Bytes) (r : List (Option Bytes)) : join [44] ((o :: r).map jsonItem) ≠ [] := by
  have : jsonItem o ≠ [] := by cases o <;> simp [jsonItem]
  cases r with
  | nil => simpa [join] using this
  | cons a b => simp [join]

/-- The client reads the list that the server wrote: null is nil, a string is a payload. -/
theorem C78_body_roundtrip (l : List (Option Bytes)) : readBody (jsonBody l) = some l := by
  unfold readBody jsonBody
  rw [if_pos (by
    refine ⟨by simp, by simp, ?_⟩
    rw [List.drop_append_of_le_length (by simp)]
    simp)]
  cases l with
  | nil => rfl
  | cons o r =>
    rw [if_neg (by
      intro h
      have := congrArg List.length h
      simp only [List.length_append, List.length_cons, List.length_nil] at this
      exact join_ne_nil o r (List.length_eq_zero_iff.1 (by omega)))]
    have : (([91] ++ join [44] ((o :: r).map jsonItem) ++ [93, 10] : Bytes).drop 1).take (([91] ++ join [44] ((o :: r).map jsonItem) ++ [93, 10] : Bytes).length - 3) = join [44] ((o :: r).map jsonItem) := by
      simp
    rw [this, splitComma_join _ (by simp) (by
      intro s hs
      obtain ⟨x, _, rfl⟩ := List.mem_map.1 hs
      exact jsonItem_chars x), mapM_readItem]

/-! ## C78 -/

/-- For every list of IDs, with repetitions and unknown IDs, in every order in which the DB delivers the rows: the answer is OK, has one entry per ID in the
same order, and entry `i` is the payload stored under ID `i`, or nil if there is none. Partial: for at least one ID, if the rows are read without error. -/
theorem C78_answer_partial {db : DB} {k : Kind} {query : List Bytes → List (Bytes × Bytes)} (hq : Delivers db k query)
    (hf : ∀ i p q, StoredIn db k i p → StoredIn db k i q → p = q) (ids : List Bytes) (hne : ids ≠ []) (hl : ∀ i ∈ ids, i.length = 32) :
    ∃ body answers, apiGetPayloads query (ids.flatMap hexEncode) = .ok body ∧ readBody body = some answers ∧ answers.length = ids.length ∧
      ∀ (i : Nat) (id : Bytes), ids[i]? = some id → ∃ a, answers[i]? = some a ∧ ∀ p, a = some p ↔ StoredIn db k id p := by
  refine ⟨jsonBody (ids.map (readRows (query ids))), ids.map (readRows (query ids)), ?_, C78_body_roundtrip _, by simp, ?_⟩
  · unfold apiGetPayloads
    rw [C78_request_roundtrip ids hl]
    simp only [retrieve_eq hne]
  · intro i id hi
    refine ⟨readRows (query ids) id, by rw [List.getElem?_map, hi]; rfl, ?_⟩
    have hmem : id ∈ ids := List.mem_of_getElem? hi
    have hrow : ∀ p, (id, p) ∈ query ids ↔ StoredIn db k id p := by
      intro p
      rw [(hq ids).mem_iff, mem_selected]
      exact ⟨fun h => h.2, fun h => ⟨hmem, h⟩⟩
    intro p
    constructor
    · intro h; exact (hrow p).1 (readRows_some _ _ _ h)
    · intro h
      cases hr : readRows (query ids) id with
      | none => exact absurd ((hrow p).2 h) (readRows_none _ _ hr p)
      | some q => rw [hf id p q h ((hrow q).1 (readRows_some _ _ _ hr))]

/-- After every history of the DB, the routes for certificates and for policies need no further hypothesis. -/
theorem C78_answer_history_partial {H : Bytes → Bytes} {db : DB} (hh : Hist H db) {k : Kind} (hk : k = .certificates ∨ k = .policies)
    {query : List Bytes → List (Bytes × Bytes)} (hq : Delivers db k query) (ids : List Bytes) (hne : ids ≠ []) (hl : ∀ i ∈ ids, i.length = 32) :
    ∃ body answers, apiGetPayloads query (ids.flatMap hexEncode) = .ok body ∧ readBody body = some answers ∧ answers.length = ids.length ∧
      ∀ (i : Nat) (id : Bytes), ids[i]? = some id → ∃ a, answers[i]? = some a ∧ ∀ p, a = some p ↔ StoredIn db k id p := by
  refine C78_answer_partial hq ?_ ids hne hl
  have uniq : ∀ t : List Cert, (t.map Cert.id).Nodup → ∀ c ∈ t, ∀ d ∈ t, c.id = d.id → c = d := by
    intro t ht c hc d hd he
    exact List.inj_on_of_nodup_map ht hc hd he
  have hkeys := (hist_inv hh).keys
  rcases hk with rfl | rfl
  · rintro i p q ⟨c, hc, h1, rfl⟩ ⟨d, hd, h2, rfl⟩
    rw [uniq _ hkeys.certs c hc d hd (h1.trans h2.symm)]
  · rintro i p q ⟨c, hc, h1, rfl⟩ ⟨d, hd, h2, rfl⟩
    rw [uniq _ hkeys.policies c hc d hd (h1.trans h2.symm)]

/-- Whatever goes wrong while the rows are read, a payload in an answer is the one stored under its ID. -/
theorem C78_payloads_are_stored {db : DB} {k : Kind} {query : List Bytes → List (Bytes × Bytes)} (hq : DeliversSome db k query) (param body : Bytes)
    (h : apiGetPayloads query param = .ok body) :
    ∃ (ids : List Bytes) (answers : List (Option Bytes)), ids.flatMap hexEncode = param.map lower ∧ readBody body = some answers ∧ answers.length = ids.length ∧
      ∀ (i : Nat) (id p : Bytes), ids[i]? = some id → answers[i]? = some (some p) → StoredIn db k id p := by
  unfold apiGetPayloads at h
  cases hp : parseIds param with
  | none => rw [hp] at h; cases h
  | some ids =>
    rw [hp] at h
    simp only at h
    by_cases hne : ids = []
    · subst hne; cases h
    · rw [retrieve_eq hne] at h
      cases h
      refine ⟨ids, ids.map (readRows (query ids)), (C78_request_meaning _ _ hp).1, C78_body_roundtrip _, by simp, ?_⟩
      intro i id p hi ha
      rw [List.getElem?_map, hi] at ha
      obtain ⟨all, h1, h2⟩ := hq ids
      have hr : readRows (query ids) id = some p := by simpa using ha
      have := (mem_selected db k ids id p).1 (h1.mem_iff.1 (h2.subset (readRows_some _ _ _ hr)))
      exact this.2

/-- A malformed parameter is answered with status 400. -/
theorem C78_malformed_rejected (query : List Bytes → List (Bytes × Bytes)) (param : Bytes)
    (h : param.length % 64 ≠ 0 ∨ ∃ c ∈ param, hexVal c = none) : apiGetPayloads query param = .badRequest := by
  unfold apiGetPayloads
  cases hp : parseIds param with
  | none => rfl
  | some ids =>
    have := (C78_request_accepted param).1 (by rw [hp]; rfl)
    rcases h with h | ⟨c, hc, h⟩
    · exact absurd this.1 h
    · have := this.2 c hc
      rw [h] at this; cases this

/-! ## Violations and examples -/

def exId : Bytes := List.replicate 32 7
def exId2 : Bytes := List.replicate 32 200
def exDb : DB := ⟨[⟨exId, [], 5, [1, 2]⟩, ⟨exId2, exId, 5, [9]⟩], [], [], [⟨List.replicate 32 3, [], 5, [8]⟩], [], [], []⟩

/-- If the connection is lost, or the time of the request is over, after the query but before the first row, the answer is OK and says that a stored
certificate does not exist: `rows.Err` is never looked at. -/
theorem C78_lost_rows_violated : ∃ query, DeliversSome exDb .certificates query ∧ StoredIn exDb .certificates exId [1, 2] ∧
    ∃ body, apiGetPayloads query (hexEncode exId) = .ok body ∧ readBody body = some [none] := by
  refine ⟨fun _ => [], fun ids => ⟨_, List.Perm.refl _, List.nil_prefix⟩, ⟨⟨exId, [], 5, [1, 2]⟩, by simp [exDb], rfl, rfl⟩, jsonBody [none], ?_, C78_body_roundtrip _⟩
  decide +kernel

/-- The empty list of IDs, whose text is a multiple of 64 characters long, is answered with an error (`IN ()` is no SQL). -/
theorem C78_empty_violated (query : List Bytes → List (Bytes × Bytes)) : parseIds [] = some [] ∧ apiGetPayloads query [] = .badRequest := ⟨rfl, rfl⟩

/-- With an ID in both tables the answer depends on the order of the rows. -/
theorem C78_both_tables_violated : ∃ (db : DB) (q1 q2 : List Bytes → List (Bytes × Bytes)), Delivers db .both q1 ∧ Delivers db .both q2 ∧
    apiGetPayloads q1 (hexEncode exId) ≠ apiGetPayloads q2 (hexEncode exId) := by
  refine ⟨{ exDb with policies := [⟨exId, [], 5, [8]⟩] }, selected { exDb with policies := [⟨exId, [], 5, [8]⟩] } .both,
    fun ids => (selected { exDb with policies := [⟨exId, [], 5, [8]⟩] } .both ids).reverse, fun _ => .refl _, fun _ => List.reverse_perm _, ?_⟩
  decide +kernel

/-- The routes. -/
theorem C78_routes : routeKind "/getpayloads" = some .both ∧ routeKind "/getcertpayloads" = some .certificates ∧ routeKind "/getpolicypayloads" = some .policies := by
  decide

example : ∃ query, Delivers exDb .both query ∧ (∀ i p q, StoredIn exDb .both i p → StoredIn exDb .both i q → p = q) ∧
    readBody (jsonBody [some [9], none, some [1, 2], some [8], some [9]]) = some [some [9], none, some [1, 2], some [8], some [9]] ∧
    apiGetPayloads query ([exId2, List.replicate 32 1, exId, List.replicate 32 3, exId2].flatMap hexEncode) = .ok (jsonBody [some [9], none, some [1, 2], some [8], some [9]]) := by
  refine ⟨selected exDb .both, fun _ => .refl _, ?_, C78_body_roundtrip _, by decide +kernel⟩
  have key : ∀ i p, StoredIn exDb .both i p → (i, p) ∈ [(exId, ([1, 2] : Bytes)), (exId2, [9]), (List.replicate 32 3, [8])] := by
    rintro i p (⟨c, hc, rfl, rfl⟩ | ⟨c, hc, rfl, rfl⟩)
    · simp only [exDb, List.mem_cons, List.not_mem_nil, or_false] at hc
      rcases hc with rfl | rfl <;> simp
    · simp only [exDb, List.mem_cons, List.not_mem_nil, or_false] at hc
      subst hc; simp
  have nd : ([(exId, ([1, 2] : Bytes)), (exId2, [9]), (List.replicate 32 3, [8])].map Prod.fst).Nodup := by decide
  intro i p q hp hq
  have := List.inj_on_of_nodup_map nd (key i p hp) (key i q hq) rfl
  exact congrArg Prod.snd this

example : Hist id Fpki.Db.emptyDB := .empty

end Fpki.PayloadApi
