import Verif.Model.LogConf
import Verif.Lemmas.Reflect
import Verif.Lemmas.JsonPrefix
import Verif.Props.LogClient
import Mathlib.Data.List.Forall2

/-! # C128: configuration files of the policy log -/
namespace Fpki.LogConf

open Fpki.Json Fpki.Config
open Fpki.Policy (fixUtf8 ValidUtf8)
open Fpki.Domain (asc)

/-! ## Specification -/

/-- A value of the type (`int` has 64 bits). -/
def Kind.Holds : Kind → Value → Prop
  | .int, .int i => -(2 ^ 63) ≤ i ∧ i < 2 ^ 63
  | .bool, .bool _ => True
  | .str, .str _ => True
  | _, _ => False

/-- The values of a struct: one for each field, of its type. -/
def Belongs (t : Fields) (c : List Value) : Prop := List.Forall₂ (fun p v => p.2.Holds v) t c

/-- The names of the fields are different and ASCII. -/
def Proper (t : Fields) : Prop := (t.map (·.1)).Nodup ∧ ∀ p ∈ t, ∀ b ∈ p.1, b < 0x80

/-- What becomes of a text: bytes that are not UTF-8 are replaced. -/
def Value.clean : Value → Value
  | .str s => .str (fixUtf8 s)
  | v => v

/-- `v` is zero, false or the empty text. -/
def Value.IsZero (v : Value) : Prop := v = .int 0 ∨ v = .bool false ∨ v = .str []

instance (v : Value) : Decidable v.IsZero := by unfold Value.IsZero; infer_instance

/-- The texts are UTF-8. -/
def Utf8 (c : List Value) : Prop := ∀ s, Value.str s ∈ c → ValidUtf8 s

/-- The field by field result of reading a saved `c` into a struct with the values `old`. -/
def merged (old c : List Value) : List Value := List.zipWith (fun o v => if v.IsZero then o else v.clean) old c

theorem proper_all : Proper logServer ∧ Proper logSigner ∧ Proper adminClient ∧ Proper logClient := by
  refine ⟨⟨by decide +kernel, by decide +kernel⟩, ⟨by decide +kernel, by decide +kernel⟩, ⟨by decide +kernel, by decide +kernel⟩, ⟨by decide +kernel, by decide +kernel⟩⟩

/-! ## Proofs -/

theorem empty_iff (v : Value) : v.empty = true ↔ v.IsZero := by
  unfold Value.IsZero
  cases v with
  | int i => simp [Value.empty]
  | bool b => simp [Value.empty]
  | str s => simp [Value.empty]

theorem dec_enc {k : Kind} {o v : Value} (h : k.Holds v) : Ints v.enc ∧ dec k o (fix v.enc) = some v.clean := by
  cases k <;> cases v <;> simp only [Kind.Holds] at h
  · rename_i i
    refine ⟨by unfold Value.enc Ints; exact intText_int i, ?_⟩
    simp only [Value.enc, fix, dec, parseInt64_intText i h.1 h.2, Option.map_some, Value.clean]
  · exact ⟨by unfold Value.enc Ints; exact True.intro, rfl⟩
  · exact ⟨by unfold Value.enc Ints; exact True.intro, by simp only [Value.enc, fix, dec, Value.clean]⟩

theorem dec_fields {t : Fields} {c : List Value} (hc : Belongs t c) (ha : ∀ p ∈ t, ∀ b ∈ p.1, b < 0x80) :
    (∀ p ∈ encFields t c, Ints p.2) ∧ ∀ (t0 : Fields) (ws old : List Value), t0.length = ws.length → old.length = t.length → ((t0 ++ t).map (·.1)).Nodup →
      decFields ((t0 ++ t).map (·.1)) (setField (t0 ++ t)) (ws ++ old) (fixMembers (encFields t c)) = some (ws ++ merged old c) := by
  induction hc with
  | nil =>
    refine ⟨(fun p hp => by cases hp), ?_⟩
    intro t0 ws old _ ho _
    have : old = [] := List.eq_nil_of_length_eq_zero ho
    subst this
    simp [encFields, fixMembers, decFields, merged]
  | @cons p v t c hv hc ih =>
    obtain ⟨n, k⟩ := p
    obtain ⟨i1, i2⟩ := ih (fun p hp => ha p (List.mem_cons_of_mem _ hp))
    have hnu : fixUtf8 n = n := fix_ascii n (ha (n, k) (by simp))
    have shift : ∀ (t0 : Fields) (ws old : List Value) (w : Value), t0.length = ws.length → old.length = t.length → ((t0 ++ (n, k) :: t).map (·.1)).Nodup →
        decFields ((t0 ++ (n, k) :: t).map (·.1)) (setField (t0 ++ (n, k) :: t)) (ws ++ w :: old) (fixMembers (encFields t c)) = some (ws ++ w :: merged old c) := by
      intro t0 ws old w h1 h2 h3
      have := i2 (t0 ++ [(n, k)]) (ws ++ [w]) old (by simp [h1]) h2 (by simpa using h3)
      simpa using this
    rw [encFields]
    by_cases hz : v.IsZero
    · rw [if_pos ((empty_iff v).2 hz)]
      refine ⟨i1, ?_⟩
      intro t0 ws old h1 h2 h3
      cases old with
      | nil => simp at h2
      | cons o old =>
        rw [show merged (o :: old) (v :: c) = o :: merged old c by unfold merged; rw [List.zipWith_cons_cons, if_pos hz]]
        exact shift t0 ws old o h1 (by simpa using h2) h3
    · rw [if_neg (fun h => hz ((empty_iff v).1 h))]
      refine ⟨?_, ?_⟩
      · intro p hp
        rcases List.mem_cons.1 hp with rfl | hp
        · exact (dec_enc (o := .int 0) hv).1
        · exact i1 p hp
      intro t0 ws old h1 h2 h3
      cases old with
      | nil => simp at h2
      | cons o old =>
        rw [show merged (o :: old) (v :: c) = v.clean :: merged old c by unfold merged; rw [List.zipWith_cons_cons, if_neg hz]]
        rw [fixMembers, hnu]
        unfold decFields
        have hidx : fieldIndex ((t0 ++ (n, k) :: t).map (·.1)) n = some t0.length := by
          have := Reflect.index_at (t0.map (·.1)) n (t.map (·.1)) (by simpa using h3)
          simpa using this
        rw [hidx]
        dsimp only
        have hset : setField (t0 ++ (n, k) :: t) t0.length (fix v.enc) (ws ++ o :: old) = some (ws ++ v.clean :: old) := by
          unfold setField
          rw [show (t0 ++ (n, k) :: t)[t0.length]? = some (n, k) by simp, show (ws ++ o :: old)[t0.length]? = some o by rw [h1]; simp]
          dsimp only
          rw [(dec_enc hv).2, h1]
          simp
        rw [hset]
        dsimp only
        exact shift t0 ws old _ h1 (by simpa using h2) h3

theorem ints_save {t : Fields} {c : List Value} (ht : Proper t) (hc : Belongs t c) : Ints (.obj (encFields t c)) := by
  unfold Ints
  rw [intsMembers_iff]
  exact (dec_fields hc ht.2).1

/-- C128. What a saved configuration becomes when it is read into a struct: the fields that were not zero get the saved values, the others stay as they were. -/
theorem C128_read_saved {t : Fields} {old c : List Value} (ht : Proper t) (ho : old.length = t.length) (hc : Belongs t c) : read t old (save t c) = some (merged old c) := by
  unfold read save
  rw [parse_render _ (ints_save ht hc)]
  unfold fix
  dsimp only
  have := (dec_fields hc ht.2).2 [] [] old rfl ho (by simpa using ht.1)
  simpa using this

theorem merged_fresh {t : Fields} {c : List Value} (hc : Belongs t c) (hu : Utf8 c) : merged (fresh t) c = c := by
  induction hc with
  | nil => rfl
  | @cons p v t c hv hc ih =>
    have h2 := ih (fun s hs => hu s (List.mem_cons_of_mem _ hs))
    unfold merged fresh at h2 ⊢
    rw [List.map_cons, List.zipWith_cons_cons, h2]
    congr 1
    split
    · rename_i hz
      obtain ⟨n, k⟩ := p
      rcases hz with rfl | rfl | rfl <;> cases k <;> simp only [Kind.Holds] at hv <;> rfl
    · cases v with
      | str s => rw [Value.clean, show fixUtf8 s = s from hu s (by simp)]
      | _ => rfl

/-- C128. A saved configuration is read back exactly by a program that starts with an empty struct, if its texts are UTF-8. -/
theorem C128_roundtrip_partial {t : Fields} {c : List Value} (ht : Proper t) (hc : Belongs t c) (hu : Utf8 c) : read t (fresh t) (save t c) = some c := by
  rw [C128_read_saved ht (by unfold fresh; simp) hc, merged_fresh hc hu]

/-- C128. If the process stops while a configuration is saved, then the file is as before, or it is complete, or reading it gives an error: a part of a configuration is never taken for one. -/
theorem C128_crash {t : Fields} {c old : List Value} (ht : Proper t) (hc : Belongs t c) {before file : Bytes} (hf : Leaves before (save t c) file) :
    file = before ∨ file = save t c ∨ read t old file = none := by
  cases hf with
  | not_begun => exact .inl rfl
  | part p r he =>
    by_cases hr : r = []
    · subst hr
      rw [List.append_nil] at he
      exact .inr (.inl he)
    · refine .inr (.inr ?_)
      unfold read
      rw [(cut_render (ints_save ht hc) rfl he hr).2]

theorem dec_holds {k : Kind} {o v : Value} {j : J} (ho : k.Holds o) (h : dec k o j = some v) : k.Holds v := by
  cases k <;> cases j <;> simp only [dec, Option.some.injEq, reduceCtorEq] at h <;> try (subst h; first | exact ho | exact True.intro)
  rename_i lit
  cases hp : Rows.parseInt64 lit with
  | none => rw [hp] at h; cases h
  | some i =>
    rw [hp] at h
    simp only [Option.map_some, Option.some.injEq] at h
    subst h
    exact Reflect.parseInt64_range hp

theorem belongs_set {t : Fields} {c : List Value} (hc : Belongs t c) : ∀ (i : Nat) (p : Bytes × Kind) (v : Value), t[i]? = some p → p.2.Holds v → Belongs t (c.set i v) := by
  unfold Belongs at *
  induction hc with
  | nil => intro i p v h; simp at h
  | @cons q w t c hq hc ih =>
    intro i p v h hv
    cases i with
    | zero =>
      simp only [List.getElem?_cons_zero, Option.some.injEq] at h
      subst h
      exact .cons hv hc
    | succ i =>
      simp only [List.getElem?_cons_succ] at h
      exact .cons hq (ih i p v h hv)

theorem belongs_get {t : Fields} {c : List Value} (hc : Belongs t c) : ∀ (i : Nat) (p : Bytes × Kind) (v : Value), t[i]? = some p → c[i]? = some v → p.2.Holds v := by
  unfold Belongs at *
  induction hc with
  | nil => intro i p v h; simp at h
  | @cons q w t c hq hc ih =>
    intro i p v h hv
    cases i with
    | zero =>
      simp only [List.getElem?_cons_zero, Option.some.injEq] at h hv
      subst h; subst hv
      exact hq
    | succ i => exact ih i p v (by simpa using h) (by simpa using hv)

/-- C128. Whatever the file holds, what is read has a value of the right type in every field. -/
theorem C128_types {t : Fields} {old c : List Value} {text : Bytes} (ho : Belongs t old) (h : read t old text = some c) : Belongs t c := by
  unfold read at h
  split at h
  · cases h; exact ho
  · refine Reflect.decFields_inv (Belongs t) _ _ ?_ _ _ _ ho h
    intro i j c c' hc he
    unfold setField at he
    split at he
    · rename_i p o hp hv
      cases hd : dec p.2 o j with
      | none => rw [hd] at he; cases he
      | some v =>
        rw [hd] at he
        simp only [Option.map_some, Option.some.injEq] at he
        subst he
        exact belongs_set hc i p v hp (dec_holds (belongs_get hc i p o hp hv) hd)
    · cases he
  · cases h

/-- C128. A member that is no field of the struct in any letter case, such as a misspelt one, changes nothing and gives no error, whatever its value is. -/
theorem C128_unknown_ignored {t : Fields} {old : List Value} (l : List (Bytes × J)) (hi : ∀ p ∈ l, Ints p.2)
    (hu : ∀ p ∈ l, ValidUtf8 p.1 ∧ ∀ q ∈ t, foldName q.1 ≠ foldName p.1) : read t old (render (.obj l)) = some old := by
  unfold read
  rw [parse_render _ (by unfold Ints; rw [intsMembers_iff]; exact hi)]
  unfold fix
  dsimp only
  clear hi
  induction l with
  | nil => simp only [fixMembers, decFields]
  | cons p l ih =>
    obtain ⟨n, j⟩ := p
    have hp := hu (n, j) (by simp)
    rw [fixMembers, show fixUtf8 n = n from hp.1]
    unfold decFields
    have : fieldIndex (t.map (·.1)) n = none := by
      unfold fieldIndex
      have h1 : (t.map (·.1)).findIdx? (fun m => foldName m == foldName n) = none := by
        rw [List.findIdx?_eq_none_iff]
        intro x hx
        obtain ⟨q, hq, rfl⟩ := List.mem_map.1 hx
        have := hp.2 q hq
        simpa using this
      have h2 : (t.map (·.1)).findIdx? (· == n) = none := by
        rw [List.findIdx?_eq_none_iff]
        intro x hx
        obtain ⟨q, hq, rfl⟩ := List.mem_map.1 hx
        have := hp.2 q hq
        simp only [beq_eq_false_iff_ne, ne_eq]
        intro e
        exact this (by rw [e])
      rw [h2]
      exact h1
    rw [this]
    exact ih (fun p hp => hu p (List.mem_cons_of_mem _ hp))

/-! ## What does not hold -/

/-- A client's configuration with no worker. -/
def exConf : List Value := [.int 42, .str (asc "localhost:8090"), .int 1000000, .str (asc "/tmp/log"), .int 0]

/-- Another. -/
def exOld : List Value := [.int 7, .str (asc "otherhost:1"), .int 0, .str [], .int 8]

example : Proper logClient ∧ Belongs logClient exConf ∧ Belongs logClient exOld ∧ Utf8 exConf := by
  refine ⟨proper_all.2.2.2, ?_, ?_, ?_⟩
  · exact .cons (by unfold Kind.Holds; decide) (.cons True.intro (.cons (by unfold Kind.Holds; decide) (.cons True.intro (.cons (by unfold Kind.Holds; decide) .nil))))
  · exact .cons (by unfold Kind.Holds; decide) (.cons True.intro (.cons (by unfold Kind.Holds; decide) (.cons True.intro (.cons (by unfold Kind.Holds; decide) .nil))))
  · intro s hs
    simp only [exConf, List.mem_cons, reduceCtorEq, List.not_mem_nil, Value.str.injEq, false_or, or_false] at hs
    rcases hs with rfl | rfl <;> (unfold ValidUtf8; decide +kernel)

example : Leaves [] (save logClient exConf) ((save logClient exConf).take 5) := .part _ ((save logClient exConf).drop 5) (List.take_append_drop _ _)

/-- C128 is violated for values that are zero: a configuration that is read into a struct in use does not replace it. -/
theorem C128_stale_violated : ∃ old c, Belongs logClient old ∧ Belongs logClient c ∧ Utf8 c ∧ ∃ r, read logClient old (save logClient c) = some r ∧ r ≠ c ∧ r[4]? = old[4]? ∧ old[4]? ≠ c[4]? := by
  have hb : Belongs logClient exConf := .cons (by unfold Kind.Holds; decide) (.cons True.intro (.cons (by unfold Kind.Holds; decide) (.cons True.intro (.cons (by unfold Kind.Holds; decide) .nil))))
  have ho : Belongs logClient exOld := .cons (by unfold Kind.Holds; decide) (.cons True.intro (.cons (by unfold Kind.Holds; decide) (.cons True.intro (.cons (by unfold Kind.Holds; decide) .nil))))
  refine ⟨exOld, exConf, ho, hb, ?_, _, C128_read_saved proper_all.2.2.2 rfl hb, by decide +kernel, by decide +kernel, by decide +kernel⟩
  intro s hs
  simp only [exConf, List.mem_cons, reduceCtorEq, List.not_mem_nil, Value.str.injEq, false_or, or_false] at hs
  rcases hs with rfl | rfl <;> (unfold ValidUtf8; decide +kernel)

/-- C128 is violated for texts that are not UTF-8 (a path, for example): they are changed without an error. -/
theorem C128_bytes_violated : ∃ c r, Belongs logClient c ∧ read logClient (fresh logClient) (save logClient c) = some r ∧ r ≠ c := by
  have hb : Belongs logClient [.int 1, .str [], .int 0, .str [0x2F, 0xFF], .int 1] :=
    .cons (by unfold Kind.Holds; decide) (.cons True.intro (.cons (by unfold Kind.Holds; decide) (.cons True.intro (.cons (by unfold Kind.Holds; decide) .nil))))
  exact ⟨_, _, hb, C128_read_saved proper_all.2.2.2 rfl hb, by decide +kernel⟩

/-- C128 is violated for incomplete files: an empty object, or one with a misspelt number of workers, is accepted, and gives a client without workers, which blocks for ever when it adds leaves. -/
theorem C128_no_workers_violated {ε : Type} : ∀ text ∈ [asc "{}", asc "{\"NumOfWorkers\":8}"], ∃ c, read logClient (fresh logClient) text = some c ∧ workers c = 0 ∧
    ∀ size, 0 < size → (LogClient.start size (workers c) : LogClient.Farm (Option ε)).phase = .loop ∧ ∀ e, (LogClient.start size (workers c) : LogClient.Farm (Option ε)).exec e = none := by
  intro text ht
  have hr : read logClient (fresh logClient) text = some (fresh logClient) := by
    simp only [List.mem_cons, List.not_mem_nil, or_false] at ht
    rcases ht with rfl | rfl <;> decide +kernel
  refine ⟨fresh logClient, hr, by decide +kernel, ?_⟩
  intro size hs
  rw [show workers (fresh logClient) = 0 by decide +kernel]
  exact LogClient.C61_no_workers_violated size hs

example : ∃ l : List (Bytes × J), l ≠ [] ∧ (∀ p ∈ l, Ints p.2) ∧ ∀ p ∈ l, ValidUtf8 p.1 ∧ ∀ q ∈ logClient, foldName q.1 ≠ foldName p.1 :=
  ⟨[(asc "NumOfWorkers", .bool true)], by simp, by intro p hp; simp only [List.mem_singleton] at hp; subst hp; unfold Ints; exact True.intro,
    by intro p hp; simp only [List.mem_singleton] at hp; subst hp; exact ⟨by unfold ValidUtf8; decide +kernel, by decide +kernel⟩⟩

end Fpki.LogConf
