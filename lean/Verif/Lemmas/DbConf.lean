import Verif.Model.DbConf
import Mathlib.Tactic.Tauto
/-!
# Lemmas for the configuration of the DB connection
-/
namespace Fpki.DbConf
open Fpki.Domain (asc)
open Fpki.PayloadApi (hexVal join)

/-! ## Cutting -/

theorem cut_none {c : Byte} {s : Bytes} (h : c ∉ s) : cut c s = (s, none) := by
  have hp : ∀ x ∈ s, (x != c) = true := by
    intro x hx; simp only [bne_iff_ne, ne_eq]; rintro rfl; exact h hx
  have h1 : s.takeWhile (· != c) = s := by
    have := List.takeWhile_append_of_pos (l₂ := []) hp; simpa using this
  have h2 : s.dropWhile (· != c) = [] := by
    have := List.dropWhile_append_of_pos (l₂ := []) hp; simpa using this
  simp [cut, h1, h2]

theorem cut_some {c : Byte} {a b : Bytes} (h : c ∉ a) : cut c (a ++ c :: b) = (a, some b) := by
  have hp : ∀ x ∈ a, (x != c) = true := by
    intro x hx; simp only [bne_iff_ne, ne_eq]; rintro rfl; exact h hx
  have h1 : (a ++ c :: b).takeWhile (· != c) = a := by
    rw [List.takeWhile_append_of_pos hp]; simp
  have h2 : (a ++ c :: b).dropWhile (· != c) = c :: b := by
    rw [List.dropWhile_append_of_pos hp]; simp
  simp [cut, h1, h2]

theorem cutLast_some {c : Byte} {a b : Bytes} (h : c ∉ b) : cutLast c (a ++ c :: b) = some (a, b) := by
  have : (a ++ c :: b).reverse = b.reverse ++ c :: a.reverse := by simp
  simp [cutLast, this, cut_some (c := c) (a := b.reverse) (b := a.reverse) (by simpa using h)]

/-! ## Splitting -/

theorem split_none {c : Byte} {s : Bytes} (h : c ∉ s) : split c s = [s] := by
  induction s with
  | nil => rfl
  | cons x r ih =>
    have hx : ¬ x = c := by rintro rfl; exact h (List.mem_cons_self ..)
    have hr := ih (fun hm => h (List.mem_cons_of_mem _ hm))
    have : split c (x :: r) = (if x = c then [] :: split c r else match split c r with | [] => [[x]] | l :: ls => (x :: l) :: ls) := rfl
    rw [this, if_neg hx, hr]

theorem split_append {c : Byte} {s t : Bytes} (h : c ∉ s) : split c (s ++ c :: t) = s :: split c t := by
  induction s with
  | nil =>
    have : split c (c :: t) = (if c = c then [] :: split c t else match split c t with | [] => [[c]] | l :: ls => (c :: l) :: ls) := rfl
    rw [List.nil_append, this, if_pos rfl]
  | cons x r ih =>
    have hx : ¬ x = c := by rintro rfl; exact h (List.mem_cons_self ..)
    have hr := ih (fun hm => h (List.mem_cons_of_mem _ hm))
    have : split c (x :: r ++ c :: t) =
      (if x = c then [] :: split c (r ++ c :: t) else match split c (r ++ c :: t) with | [] => [[x]] | l :: ls => (x :: l) :: ls) := rfl
    rw [this, if_neg hx, hr]

theorem split_join {c : Byte} : ∀ {l : List Bytes}, l ≠ [] → (∀ s ∈ l, c ∉ s) → split c (join [c] l) = l
  | [], h, _ => absurd rfl h
  | [x], _, hs => by simp only [join]; exact split_none (hs x (by simp))
  | x :: y :: r, _, hs => by
    simp only [join, List.append_assoc, List.singleton_append]
    rw [split_append (hs x (by simp)), split_join (by simp) (fun s hm => hs s (List.mem_cons_of_mem _ hm))]

theorem mem_join {sep : Bytes} {b : Byte} : ∀ {l : List Bytes}, b ∈ join sep l → b ∈ sep ∨ ∃ s ∈ l, b ∈ s
  | [], h => by simp [join] at h
  | [x], h => .inr ⟨x, by simp, by simpa [join] using h⟩
  | x :: y :: r, h => by
    simp only [join, List.mem_append] at h
    rcases h with (h | h) | h
    · exact .inr ⟨x, by simp, h⟩
    · exact .inl h
    · rcases mem_join h with h | ⟨s, hs, hb⟩
      · exact .inl h
      · exact .inr ⟨s, List.mem_cons_of_mem _ hs, hb⟩

/-! ## Escaping -/

theorem hex_ok : ∀ c : Byte, hexVal (hexUp (c.toNat / 16)) = some (c.toNat / 16) ∧ hexVal (hexUp (c.toNat % 16)) = some (c.toNat % 16) := by
  intro c
  have : ∀ n < 16, hexVal (hexUp n) = some n := by decide
  exact ⟨this _ (by have := c.toNat_lt; omega), this _ (by omega)⟩

theorem byte_div_mod (c : Byte) : UInt8.ofNat (c.toNat / 16 * 16 + c.toNat % 16) = c := by
  have : c.toNat / 16 * 16 + c.toNat % 16 = c.toNat := by omega
  rw [this]; simp

theorem unescape_other {plus : Bool} {c : Byte} (h : c ≠ 37) (r : Bytes) :
    unescape plus (c :: r) = (unescape plus r).map fun t => (if plus && c == 43 then 32 else c) :: t := by
  rw [unescape.eq_def]; simp only [if_neg h]

theorem unescape_pct (plus : Bool) (c : Byte) (r : Bytes) : unescape plus (pct c ++ r) = (unescape plus r).map (c :: ·) := by
  simp only [pct, List.cons_append, List.nil_append]
  rw [unescape.eq_def]
  simp only [if_true, (hex_ok c).1, (hex_ok c).2]
  cases unescape plus r with
  | none => rfl
  | some t => simp only [byte_div_mod, Option.map_some]

theorem unreserved_ne {c : Byte} (h : unreserved c = true) : c ≠ 37 ∧ c ≠ 43 ∧ c ≠ 47 ∧ c ≠ 38 ∧ c ≠ 61 ∧ c ≠ 59 := by
  refine ⟨?_, ?_, ?_, ?_, ?_, ?_⟩ <;> (rintro rfl; revert h; decide)

/-- A value that was escaped is read back. -/
theorem unescape_queryEscape (s : Bytes) : unescape true (queryEscape s) = some s := by
  induction s with
  | nil => rfl
  | cons c r ih =>
    have e : queryEscape (c :: r) = (if unreserved c then [c] else if c = 32 then [43] else pct c) ++ queryEscape r := rfl
    rw [e]
    split
    · rename_i hc
      obtain ⟨h1, h2, _⟩ := unreserved_ne hc
      rw [List.singleton_append, unescape_other h1, ih, Option.map_some]
      have : (c == 43) = false := by simpa using h2
      simp [this]
    · split
      · rename_i hc; subst hc
        rw [List.singleton_append, unescape_other (by decide), ih]; rfl
      · rw [unescape_pct, ih]; rfl

theorem queryEscape_chars {s : Bytes} {b : Byte} (h : b ∈ queryEscape s) : unreserved b = true ∨ b = 37 ∨ b = 43 := by
  simp only [queryEscape, List.mem_flatMap] at h
  obtain ⟨c, _, hb⟩ := h
  split at hb
  · rename_i hc; simp only [List.mem_singleton] at hb; subst hb; exact .inl hc
  · split at hb
    · simp only [List.mem_singleton] at hb; exact .inr (.inr hb)
    · have hu : ∀ n < 16, unreserved (hexUp n) = true := by decide
      simp only [pct, List.mem_cons, List.not_mem_nil, or_false] at hb
      rcases hb with hb | hb | hb
      · exact .inr (.inl hb)
      · subst hb; exact .inl (hu _ (by have := c.toNat_lt; omega))
      · subst hb; exact .inl (hu _ (by omega))

theorem queryEscape_unreserved {s : Bytes} (h : ∀ c ∈ s, unreserved c = true) : queryEscape s = s := by
  induction s with
  | nil => rfl
  | cons c r ih =>
    have e : queryEscape (c :: r) = (if unreserved c then [c] else if c = 32 then [43] else pct c) ++ queryEscape r := rfl
    rw [e, if_pos (h c (by simp)), ih (fun x hx => h x (List.mem_cons_of_mem _ hx))]
    rfl

theorem queryEscape_not {s : Bytes} {b : Byte} (hb : b = 47 ∨ b = 38 ∨ b = 61 ∨ b = 59) : b ∉ queryEscape s := by
  intro h
  rcases queryEscape_chars h with h | h | h
  · obtain ⟨_, _, h1, h2, h3, h4⟩ := unreserved_ne h
    rcases hb with hb | hb | hb | hb
    · exact h1 hb
    · exact h2 hb
    · exact h3 hb
    · exact h4 hb
  · subst h; revert hb; decide
  · subst h; revert hb; decide

theorem unescape_noPct {s : Bytes} (h : (37 : Byte) ∉ s) : unescape false s = some s := by
  induction s with
  | nil => rfl
  | cons c r ih =>
    have hc : ¬ c = 37 := by rintro rfl; exact h (List.mem_cons_self ..)
    rw [unescape_other hc, ih (fun hm => h (List.mem_cons_of_mem _ hm))]
    simp

/-! ## The parameters -/

theorem insertPair_perm (p : Bytes × Bytes) (l : List (Bytes × Bytes)) : (insertPair p l).Perm (p :: l) := by
  induction l with
  | nil => exact .refl _
  | cons q r ih =>
    simp only [insertPair]
    split
    · exact .refl _
    · exact ((ih.cons q).trans (List.Perm.swap p q r))

/-- The pairs in the order of `Encode`. -/
def sorted (ps : List (Bytes × Bytes)) : List (Bytes × Bytes) := ps.foldl (fun acc p => insertPair p acc) []

theorem sorted_perm (ps : List (Bytes × Bytes)) : (sorted ps).Perm ps := by
  have : ∀ (ps acc : List (Bytes × Bytes)), (ps.foldl (fun acc p => insertPair p acc) acc).Perm (ps ++ acc) := by
    intro ps
    induction ps with
    | nil => intro acc; exact .refl _
    | cons p ps ih =>
      intro acc
      refine (ih _).trans ?_
      refine ((insertPair_perm p acc).append_left ps).trans ?_
      exact List.perm_middle
  simpa [sorted] using this ps []

def item (p : Bytes × Bytes) : Bytes := queryEscape p.1 ++ [61] ++ queryEscape p.2

theorem encode_eq (ps : List (Bytes × Bytes)) : encode ps = join [38] ((sorted ps).map item) := rfl

theorem item_no {p : Bytes × Bytes} {b : Byte} (hb : b = 47 ∨ b = 38 ∨ b = 59) : b ∉ item p := by
  have hb' : b = 47 ∨ b = 38 ∨ b = 61 ∨ b = 59 := by rcases hb with h | h | h <;> simp [h]
  simp only [item, List.mem_append, List.mem_singleton, not_or]
  refine ⟨⟨queryEscape_not hb', ?_⟩, queryEscape_not hb'⟩
  rintro rfl; revert hb; decide

theorem encode_noSlash (ps : List (Bytes × Bytes)) : (47 : Byte) ∉ encode ps := by
  rw [encode_eq]
  intro h
  rcases mem_join h with h | ⟨s, hs, hb⟩
  · revert h; decide
  · obtain ⟨p, _, rfl⟩ := List.mem_map.mp hs
    exact item_no (.inl rfl) hb

theorem driverParams_nil : driverParams [] = some [] := by decide

theorem mapM_map {α β γ : Type} (f : α → β) (g : β → Option γ) (h : α → γ) (l : List α) (hl : ∀ a ∈ l, g (f a) = some (h a)) :
    (l.map f).mapM g = some (l.map h) := by
  induction l with
  | nil => rfl
  | cons a r ih =>
    simp only [List.map_cons, List.mapM_cons, hl a (by simp), ih (fun a ha => hl a (List.mem_cons_of_mem _ ha))]
    rfl

/-- The parameters reach the driver. -/
theorem driverParams_encode {ps : List (Bytes × Bytes)} (hk : ∀ p ∈ ps, ∀ c ∈ p.1, unreserved c = true) : driverParams (encode ps) = some (sorted ps) := by
  rw [encode_eq]
  by_cases h0 : sorted ps = []
  · rw [h0]; exact driverParams_nil
  · have hs : split 38 (join [38] ((sorted ps).map item)) = (sorted ps).map item := by
      refine split_join (by simpa using h0) ?_
      intro s hs
      obtain ⟨p, _, rfl⟩ := List.mem_map.mp hs
      exact item_no (.inr (.inl rfl))
    simp only [driverParams, hs]
    have hf : ((sorted ps).map item).filter (fun p => p.contains 61) = (sorted ps).map item := by
      rw [List.filter_eq_self]
      intro s hs
      obtain ⟨p, _, rfl⟩ := List.mem_map.mp hs
      simp [item]
    rw [hf, mapM_map item _ (fun p => p) (sorted ps)]
    · simp
    · intro p hp
      have hp' : p ∈ ps := (sorted_perm ps).mem_iff.mp hp
      have hc : cut 61 (item p) = (queryEscape p.1, some (queryEscape p.2)) := by
        have : item p = queryEscape p.1 ++ 61 :: queryEscape p.2 := by simp [item]
        rw [this]; exact cut_some (queryEscape_not (.inr (.inr (.inl rfl))))
      simp only [hc, Option.getD_some, unescape_queryEscape, Option.map_some, queryEscape_unreserved (hk p hp')]

theorem parseQuery_nil : parseQuery [] = [] := by decide

theorem encode_nil_of {ps : List (Bytes × Bytes)} (h : encode ps = []) : ps = [] := by
  rw [encode_eq] at h
  have hp := sorted_perm ps
  cases hs : sorted ps with
  | nil => rw [hs] at hp; exact hp.symm.eq_nil
  | cons p r =>
    rw [hs] at h
    cases r with
    | nil => simp [join, item] at h
    | cons q r => simp [join, item] at h

/-! ## The driver -/

/-- The DSN text followed by the parameters, as the driver reads it. -/
theorem driverParse_of {up net addr db : Bytes} {ps : List (Bytes × Bytes)} (hn : (40 : Byte) ∉ net) (hna : (64 : Byte) ∉ net) (ha : (64 : Byte) ∉ addr)
    (hd1 : (47 : Byte) ∉ db) (hd2 : (63 : Byte) ∉ db) (hd3 : (37 : Byte) ∉ db) (hk : ∀ p ∈ ps, ∀ c ∈ p.1, unreserved c = true) :
    driverParse (up ++ [64] ++ net ++ [40] ++ addr ++ [41, 47] ++ db ++ (if encode ps = [] then [] else 63 :: encode ps)) =
      some (normalize ⟨(cut 58 up).1, (cut 58 up).2.getD [], net, addr, db, sorted ps⟩) := by
  have e1 : up ++ [64] ++ net ++ [40] ++ addr ++ [41, 47] ++ db ++ (if encode ps = [] then [] else 63 :: encode ps) =
      (up ++ 64 :: (net ++ 40 :: (addr ++ [41]))) ++ 47 :: (db ++ (if encode ps = [] then [] else 63 :: encode ps)) := by simp
  have hr : (47 : Byte) ∉ db ++ (if encode ps = [] then [] else 63 :: encode ps) := by
    simp only [List.mem_append, not_or]
    refine ⟨hd1, ?_⟩
    split
    · simp
    · simp only [List.mem_cons, not_or]; exact ⟨by decide, encode_noSlash ps⟩
  rw [e1, driverParse, cutLast_some hr]
  have hat : (64 : Byte) ∉ net ++ 40 :: (addr ++ [41]) := by
    simp only [List.mem_append, List.mem_cons, List.not_mem_nil, or_false, not_or]
    exact ⟨hna, by decide, ha, by decide⟩
  simp only [cutLast_some hat]
  have hA : driverAddr (net ++ 40 :: (addr ++ [41])) = some (net, addr) := by
    simp [driverAddr, cut_some hn]
  have hq : (cut 63 (db ++ (if encode ps = [] then [] else 63 :: encode ps))).1 = db ∧
      driverParams ((cut 63 (db ++ (if encode ps = [] then [] else 63 :: encode ps))).2.getD []) = some (sorted ps) := by
    by_cases h0 : encode ps = []
    · rw [if_pos h0, List.append_nil, cut_none hd2]
      refine ⟨rfl, ?_⟩
      have := encode_nil_of h0
      subst this
      exact driverParams_nil
    · rw [if_neg h0, cut_some hd2]
      exact ⟨rfl, driverParams_encode hk⟩
  simp only [hA, hq.1, hq.2, unescape_noPct hd3]

/-! ## net/url -/

/-- A character that goes through a URL path unchanged. -/
def pathChar (c : Byte) : Bool := unreserved c || (asc "!$&'()*+,/;=:@[]").contains c

theorem pathChar_facts {c : Byte} (h : pathChar c = true) : c ≠ 35 ∧ c ≠ 37 ∧ c ≠ 63 ∧ (decide (c.toNat < 32) || c.toNat == 127) = false := by
  have : ∀ c : Byte, pathChar c = true → (c ≠ 35 ∧ c ≠ 37 ∧ c ≠ 63 ∧ (decide (c.toNat < 32) || c.toNat == 127) = false) := by
    intro c hc
    have hall : ∀ n < 256, pathChar (UInt8.ofNat n) = true →
        (UInt8.ofNat n ≠ 35 ∧ UInt8.ofNat n ≠ 37 ∧ UInt8.ofNat n ≠ 63 ∧ (decide ((UInt8.ofNat n).toNat < 32) || (UInt8.ofNat n).toNat == 127) = false) := by
      decide +kernel
    have := hall c.toNat c.toNat_lt
    simpa using this (by simpa using hc)
  exact this c h

theorem parseRest_path {s q : Bytes} (h0 : s.head? ≠ some 47) (h1 : (58 : Byte) ∉ (cut 47 s).1) (h2 : (37 : Byte) ∉ s) :
    parseRest [] s q = .ok ⟨[], [], s, if pathEscape s = s then [] else s, q⟩ := by
  simp [parseRest, h0, h1, setPath, unescape_noPct h2]

/-- A DSN without scheme goes through `net/url` unchanged. -/
theorem url_path {s : Bytes} (hs : ∀ c ∈ s, pathChar c = true) (h0 : s.head? ≠ some 47) (h1 : (58 : Byte) ∉ (cut 47 s).1) (hg : getScheme s = none) :
    ∃ u, urlParse s = .ok u ∧ u.rawQuery = [] ∧ ∀ q, { u with rawQuery := q }.string = s ++ (if q = [] then [] else 63 :: q) := by
  have n35 : s.contains 35 = false := by
    rw [Bool.eq_false_iff]; intro h; rw [List.contains_iff_mem] at h; exact (pathChar_facts (hs _ h)).1 rfl
  have n37 : (37 : Byte) ∉ s := fun h => (pathChar_facts (hs _ h)).2.1 rfl
  have n63 : (63 : Byte) ∉ s := fun h => (pathChar_facts (hs _ h)).2.2.1 rfl
  have nctl : s.any (fun c => decide (c.toNat < 32) || c.toNat == 127) = false := by
    rw [List.any_eq_false]; intro c hc; rw [(pathChar_facts (hs c hc)).2.2.2]; simp
  refine ⟨⟨[], [], s, if pathEscape s = s then [] else s, []⟩, ?_, rfl, ?_⟩
  · simp only [urlParse, n35, Bool.false_eq_true, if_false, nctl, hg, cut_none n63, Option.getD_none]
    exact parseRest_path h0 h1 n37
  · intro q
    have hv : validEncoded s = true := by
      simp only [validEncoded, List.all_eq_true]
      intro c hc
      have := hs c hc
      simp only [pathChar, Bool.or_eq_true] at this ⊢
      rcases this with h | h
      · exact .inl h
      · refine .inr ?_
        have hsub : ∀ x ∈ asc "!$&'()*+,/;=:@[]", x ∈ asc "!$&'()*+,/;=:@[]%" := by decide
        rw [List.contains_iff_mem] at h ⊢
        exact hsub c h
    have he : ∀ q, Url.escapedPath ⟨[], [], s, if pathEscape s = s then [] else s, q⟩ = s := by
      intro q
      simp only [Url.escapedPath]
      by_cases hp : pathEscape s = s
      · simp only [hp, if_true, ne_eq, not_true, decide_false, Bool.false_and, Bool.false_eq_true, if_false]
        split
        · rename_i h; rw [h]
        · rfl
      · by_cases hn : s = []
        · subst hn; exact absurd rfl hp
        · simp [if_neg hp, hn, hv, unescape_noPct n37]
    simp only [Url.string, he, if_true, ne_eq, not_true, if_false, List.nil_append]
    have : (cut 47 s).1.contains 58 = false := by
      rw [Bool.eq_false_iff]; intro h; rw [List.contains_iff_mem] at h; exact h1 h
    simp [h1]

/-- Lower case letters, digits, `+`, `-` and `.`. -/
def schemeChar (c : Byte) : Bool := (97 ≤ c.toNat && c.toNat ≤ 122) || (48 ≤ c.toNat && c.toNat ≤ 57) || (asc "+-.").contains c

theorem dropWhile_stop {p : Byte → Bool} {a b : Bytes} {c : Byte} (ha : ∀ x ∈ a, p x = true) (hc : p c = false) :
    (a ++ c :: b).dropWhile p = c :: b ∧ (a ++ c :: b).takeWhile p = a := by
  refine ⟨?_, ?_⟩
  · rw [List.dropWhile_append_of_pos ha]; simp [hc]
  · rw [List.takeWhile_append_of_pos ha]; simp [hc]

theorem getScheme_some {u r : Bytes} {c0 : Byte} (h0 : 97 ≤ c0.toNat ∧ c0.toNat ≤ 122) (hu : ∀ c ∈ u, schemeChar c = true) :
    getScheme (c0 :: u ++ 58 :: r) = some (c0 :: u, r) := by
  have hp : ∀ x ∈ c0 :: u, (fun c : Byte => ((decide (97 ≤ c.toNat) && decide (c.toNat ≤ 122)) || (decide (65 ≤ c.toNat) && decide (c.toNat ≤ 90))) ||
      ((decide (48 ≤ c.toNat) && decide (c.toNat ≤ 57)) || (asc "+-.").contains c)) x = true := by
    intro x hx
    rcases List.mem_cons.mp hx with rfl | hx
    · simp [h0.1, h0.2]
    · have := hu x hx
      simp only [schemeChar, Bool.or_eq_true] at this ⊢
      tauto
  obtain ⟨d, t⟩ := dropWhile_stop (b := r) (c := 58) hp (by decide)
  have hno : ((decide (48 ≤ c0.toNat) && decide (c0.toNat ≤ 57)) || (asc "+-.").contains c0) = false := by
    have hall : ∀ n < 256, 97 ≤ n → n ≤ 122 → ((decide (48 ≤ (UInt8.ofNat n).toNat) && decide ((UInt8.ofNat n).toNat ≤ 57)) ||
      (asc "+-.").contains (UInt8.ofNat n)) = false := by decide +kernel
    have := hall c0.toNat c0.toNat_lt h0.1 h0.2
    simpa using this
  simp only [List.cons_append] at d t ⊢
  simp only [getScheme, hno, Bool.false_eq_true, if_false, d, t, if_true]

theorem getScheme_none {u r : Bytes} (hu : (58 : Byte) ∉ u) : getScheme (u ++ 64 :: r) = none := by
  cases hs : u ++ 64 :: r with
  | nil => rfl
  | cons c0 rest =>
    simp only [getScheme]
    split
    · rfl
    · rw [← hs]
      have key : ∀ (p : Byte → Bool), p 64 = false → ∀ u : Bytes, (58 : Byte) ∉ u → ∀ c t, (u ++ 64 :: r).dropWhile p = c :: t → c ≠ 58 := by
        intro p hp u
        induction u with
        | nil => intro _ c t h; simp [hp] at h; rintro rfl; revert h; simp
        | cons x u ih =>
          intro hu c t h
          simp only [List.cons_append, List.dropWhile_cons] at h
          split at h
          · exact ih (fun hm => hu (List.mem_cons_of_mem _ hm)) c t h
          · cases h; rintro rfl; exact hu (List.mem_cons_self ..)
      split
      · rfl
      · rename_i c t hd
        rw [if_neg (key _ (by decide) u hu c t hd)]

theorem toLower_scheme {c : Byte} (h : schemeChar c = true) : toLower c = c := by
  have hall : ∀ n < 256, schemeChar (UInt8.ofNat n) = true → toLower (UInt8.ofNat n) = UInt8.ofNat n := by decide +kernel
  have := hall c.toNat c.toNat_lt
  simpa using this (by simpa using h)

/-- What may stand behind the scheme: everything except control characters, `?` and `#`. -/
def opaqueChar (c : Byte) : Bool := !(c.toNat < 32 || c.toNat == 127) && c != 63 && c != 35

/-- A DSN with user and password goes through `net/url` unchanged, as an opaque URL whose scheme is the user. -/
theorem url_opaque {c0 : Byte} {u r : Bytes} (h0 : 97 ≤ c0.toNat ∧ c0.toNat ≤ 122) (hu : ∀ c ∈ u, schemeChar c = true) (hr : ∀ c ∈ r, opaqueChar c = true)
    (hr0 : r.head? ≠ some 47) (hne : r ≠ []) :
    ∃ w, urlParse (c0 :: u ++ 58 :: r) = .ok w ∧ w.rawQuery = [] ∧
      ∀ q, { w with rawQuery := q }.string = (c0 :: u ++ 58 :: r) ++ (if q = [] then [] else 63 :: q) := by
  have hsc0 : schemeChar c0 = true := by simp [schemeChar, h0.1, h0.2]
  have hsch : ∀ c, schemeChar c = true → opaqueChar c = true := by
    intro c hc
    have hall : ∀ n < 256, schemeChar (UInt8.ofNat n) = true → opaqueChar (UInt8.ofNat n) = true := by decide +kernel
    have := hall c.toNat c.toNat_lt
    simpa using this (by simpa using hc)
  have hall : ∀ c ∈ c0 :: u ++ 58 :: r, opaqueChar c = true := by
    intro c hc
    simp only [List.cons_append, List.mem_cons, List.mem_append] at hc
    rcases hc with rfl | hc | rfl | hc
    · exact hsch _ hsc0
    · exact hsch _ (hu c hc)
    · decide
    · exact hr c hc
  have n35 : (c0 :: u ++ 58 :: r).contains 35 = false := by
    rw [Bool.eq_false_iff]; intro h; rw [List.contains_iff_mem] at h; have := hall _ h; revert this; decide
  have nctl : (c0 :: u ++ 58 :: r).any (fun c => decide (c.toNat < 32) || c.toNat == 127) = false := by
    rw [List.any_eq_false]; intro c hc
    have := hall c hc
    simp only [opaqueChar, Bool.and_eq_true, Bool.not_eq_true'] at this
    rw [this.1.1]; simp
  have n63 : (63 : Byte) ∉ r := by intro h; have := hr _ h; revert this; decide
  have hlow : (c0 :: u).map toLower = c0 :: u := by
    refine (List.map_congr_left (g := id) ?_).trans (List.map_id _)
    intro c hc
    rcases List.mem_cons.mp hc with rfl | hc
    · exact toLower_scheme hsc0
    · exact toLower_scheme (hu c hc)
  refine ⟨⟨c0 :: u, r, [], [], []⟩, ?_, rfl, ?_⟩
  · simp only [urlParse, n35, nctl, Bool.false_eq_true, if_false, getScheme_some h0 hu, hlow, cut_none n63, Option.getD_none]
    simp [parseRest, hr0]
  · intro q
    simp [Url.string, hne]

/-! ## Maps -/

theorem get_put (m : Map) (k v k' : Bytes) : (m.put k v).get k' = if k' = k then some v else m.get k' := by
  unfold Map.put Map.get Map.del
  rw [List.find?_append]
  by_cases h : k' = k
  · subst h
    have : (List.filter (fun p : Bytes × Bytes => !p.1 == k') m).find? (fun p => p.1 == k') = none := by
      rw [List.find?_eq_none]
      intro p hp
      have := (List.mem_filter.mp hp).2
      simpa using this
    simp [this]
  · have h1 : (List.filter (fun p : Bytes × Bytes => !p.1 == k) m).find? (fun p => p.1 == k') = m.find? (fun p => p.1 == k') := by
      rw [List.find?_filter]
      congr 1
      funext p
      by_cases hp : p.1 = k'
      · have : ¬ p.1 = k := by rw [hp]; exact h
        simp [hp, h]
      · simp [hp]
    have h2 : ¬ k = k' := fun e => h e.symm
    simp [h1, h, h2]

theorem get_del (m : Map) (k k' : Bytes) : (m.del k).get k' = if k' = k then none else m.get k' := by
  unfold Map.get Map.del
  by_cases h : k' = k
  · subst h
    have : (List.filter (fun p : Bytes × Bytes => !p.1 == k') m).find? (fun p => p.1 == k') = none := by
      rw [List.find?_eq_none]
      intro p hp
      have := (List.mem_filter.mp hp).2
      simpa using this
    simp [this]
  · rw [List.find?_filter, if_neg h]
    congr 2
    funext p
    by_cases hp : p.1 = k'
    · simp [hp, h]
    · simp [hp]

theorem get_foldl (t : Map) (f : Bytes → Bytes → Bytes) (ht : (t.map Prod.fst).Nodup) (m : Map) (k : Bytes) :
    (t.foldl (fun m p => m.put p.1 (f p.1 p.2)) m).get k = (match t.get k with | some v => some (f k v) | none => m.get k) := by
  induction t generalizing m with
  | nil => rfl
  | cons p t ih =>
    simp only [List.map_cons, List.nodup_cons] at ht
    rw [List.foldl_cons, ih ht.2, get_put]
    by_cases h : k = p.1
    · subst h
      have : Map.get t p.1 = none := by
        unfold Map.get
        rw [Option.map_eq_none_iff, List.find?_eq_none]
        intro q hq e
        exact ht.1 (List.mem_map.mpr ⟨q, hq, by simpa using e⟩)
      have h3 : Map.get (p :: t) p.1 = some p.2 := by simp [Map.get]
      rw [this, h3, if_pos rfl]
    · have h2 : ¬ p.1 = k := fun e => h e.symm
      have : Map.get (p :: t) k = Map.get t k := by simp [Map.get, h2]
      rw [this, if_neg h]

end Fpki.DbConf
