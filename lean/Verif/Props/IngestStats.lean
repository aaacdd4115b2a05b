import Verif.Model.IngestStats
import Verif.Props.Rows
import Mathlib.Algebra.Order.Field.Rat
import Mathlib.Algebra.Order.Field.Basic

/-!
# C204, C205, C206: the progress line of ingest
-/
namespace Fpki.IngestStats
open Fpki.Rows (RawLine Now W Stats Outcome decodeField getExpiration after splitSemicolon parseLine parseRest chainLoop)
open Fpki.Chains (X509)
open Fpki.Batch (lruContains lruAdd)

/-! ## The increments are those of `Rows` -/

theorem chainTrace_stats (H : Bytes → Bytes) (parse : Bytes → Option X509) (size : Nat) : ∀ (ss : List Bytes) (w : W),
    (chainTrace H parse size w.cache ss).foldl apply w.stats = (chainLoop H parse size w ss).1.stats
  | [], w => rfl
  | s :: ss, w => by
    unfold chainTrace chainLoop
    cases decodeField s with
    | none => rfl
    | some raw =>
      dsimp only
      simp only [List.foldl_cons]
      split
      · exact chainTrace_stats H parse size ss ⟨w.cache, _⟩
      · cases parse raw with
        | none => rfl
        | some c => exact chainTrace_stats H parse size ss ⟨lruAdd size w.cache (H raw), _⟩

/-- The increments of a row add up to what `parseLine` (C86) does to the counters. -/
theorem rowTrace_stats (H : Bytes → Bytes) (parse : Bytes → Option X509) (size : Nat) (now : Now) (w : W) (l : RawLine) :
    (rowTrace H parse size now w.cache l).foldl apply w.stats = (parseLine H parse size now w l).1.stats := by
  unfold rowTrace parseLine
  cases getExpiration l.exp with
  | none => rfl
  | some n =>
    dsimp only
    simp only [List.foldl_cons]
    split
    · rfl
    · cases decodeField l.cert with
      | none => rfl
      | some raw =>
        dsimp only
        simp only [List.foldl_cons]
        split
        · rfl
        · unfold parseRest
          simp only [List.foldl_cons]
          cases parse raw with
          | none => rfl
          | some c =>
            dsimp only
            split
            · rfl
            · exact chainTrace_stats H parse size _ ⟨w.cache, _⟩

/-! ## No counter overtakes the one that it is a part of -/

/-- With `a` certificates and `b` rows in hand, the increments never count more uncached certificates or expired rows than that. -/
def Safe : Nat → Nat → List Inc → Prop
  | _, _, [] => True
  | a, b, .rows :: xs => Safe a (b + 1) xs
  | a, b, .certs :: xs => Safe (a + 1) b xs
  | a, b, .bytes _ :: xs => Safe a b xs
  | a, b, .uncached :: xs => 0 < a ∧ Safe (a - 1) b xs
  | a, b, .expired :: xs => 0 < b ∧ Safe a (b - 1) xs

theorem safe_mono : ∀ (xs : List Inc) (a b a' b' : Nat), a ≤ a' → b ≤ b' → Safe a b xs → Safe a' b' xs
  | [], _, _, _, _, _, _, _ => trivial
  | .rows :: xs, a, b, a', b', h1, h2, h => safe_mono xs a (b + 1) a' (b' + 1) h1 (by omega) h
  | .certs :: xs, a, b, a', b', h1, h2, h => safe_mono xs (a + 1) b (a' + 1) b' (by omega) h2 h
  | .bytes _ :: xs, a, b, a', b', h1, h2, h => safe_mono xs a b a' b' h1 h2 h
  | .uncached :: xs, a, b, a', b', h1, h2, h => ⟨by have := h.1; omega, safe_mono xs (a - 1) b (a' - 1) b' (by omega) h2 h.2⟩
  | .expired :: xs, a, b, a', b', h1, h2, h => ⟨by have := h.1; omega, safe_mono xs a (b - 1) a' (b' - 1) h1 (by omega) h.2⟩

theorem safe_append : ∀ (xs ys : List Inc) (a b : Nat), Safe a b xs → Safe 0 0 ys → Safe a b (xs ++ ys)
  | [], ys, a, b, _, h => safe_mono ys 0 0 a b (Nat.zero_le _) (Nat.zero_le _) h
  | .rows :: xs, ys, a, b, h1, h2 => safe_append xs ys a (b + 1) h1 h2
  | .certs :: xs, ys, a, b, h1, h2 => safe_append xs ys (a + 1) b h1 h2
  | .bytes _ :: xs, ys, a, b, h1, h2 => safe_append xs ys a b h1 h2
  | .uncached :: xs, ys, a, b, h1, h2 => ⟨h1.1, safe_append xs ys (a - 1) b h1.2 h2⟩
  | .expired :: xs, ys, a, b, h1, h2 => ⟨h1.1, safe_append xs ys a (b - 1) h1.2 h2⟩

theorem safe_chain (H : Bytes → Bytes) (parse : Bytes → Option X509) (size : Nat) : ∀ (ss cache : List Bytes) (a b : Nat), Safe a b (chainTrace H parse size cache ss)
  | [], _, _, _ => trivial
  | s :: ss, cache, a, b => by
    unfold chainTrace
    cases decodeField s with
    | none => trivial
    | some raw =>
      dsimp only
      show Safe (a + 1) b _
      split
      · exact safe_chain H parse size ss cache _ _
      · cases parse raw with
        | none => trivial
        | some c => exact ⟨by omega, safe_chain H parse size ss _ _ _⟩

theorem safe_ite (a b : Nat) (c : Bool) (xs : List Inc) (h : Safe a b xs) : Safe a b (if c then [] else xs) := by
  cases c with
  | true => trivial
  | false => exact h

section
attribute [local irreducible] Rows.after

theorem safe_row (H : Bytes → Bytes) (parse : Bytes → Option X509) (size : Nat) (now : Now) (cache : List Bytes) (l : RawLine) : Safe 0 0 (rowTrace H parse size now cache l) := by
  unfold rowTrace
  cases getExpiration l.exp with
  | none => trivial
  | some n =>
    dsimp only
    show Safe 1 1 _
    split
    · exact ⟨by omega, trivial⟩
    · cases decodeField l.cert with
      | none => trivial
      | some raw =>
        dsimp only
        show Safe 1 1 _
        split
        · trivial
        · refine ⟨by omega, ?_⟩
          cases parse raw with
          | none => trivial
          | some c =>
            exact safe_ite _ _ _ _ (safe_chain H parse size _ _ _ _)

end

theorem safe_worker (H : Bytes → Bytes) (parse : Bytes → Option X509) (size : Nat) (now : Now) : ∀ (ls : List RawLine) (w : W), Safe 0 0 (workerTrace H parse size now w ls)
  | [], _ => trivial
  | l :: ls, w => by
    unfold workerTrace
    refine safe_append _ _ _ _ (safe_row H parse size now w.cache l) ?_
    split
    · trivial
    · exact safe_worker H parse size now ls _

/-- What is in hand, worker by worker. -/
def Bal (stats : Stats) (L : List (List Inc × Nat × Nat)) : Prop :=
  (∀ x ∈ L, Safe x.2.1 x.2.2 x.1) ∧ stats.uncached + (L.map (·.2.1)).sum = stats.readCerts ∧ stats.expired + (L.map (·.2.2)).sum = stats.readRows

theorem step_bal {s t : St} {e : Ev} (hs : exec s e = some t) (h : ∃ L, s.todo = L.map (·.1) ∧ Bal s.stats L) : ∃ L, t.todo = L.map (·.1) ∧ Bal t.stats L := by
  obtain ⟨L, hL, hb⟩ := h
  cases e with
  | load => cases hs; exact ⟨L, hL, hb⟩
  | work i =>
    simp only [exec] at hs
    split at hs
    · rename_i x xs hx
      cases hs
      rw [hL, List.getElem?_map] at hx
      cases hg : L[i]? with
      | none => rw [hg] at hx; cases hx
      | some y =>
        obtain ⟨ys, a, b⟩ := y
        rw [hg] at hx
        simp only [Option.map_some, Option.some.injEq] at hx
        subst hx
        obtain ⟨hi, hg'⟩ := List.getElem?_eq_some_iff.1 hg
        have hsplit : L = L.take i ++ (x :: xs, a, b) :: L.drop (i + 1) := by
          conv => lhs; rw [← List.take_append_drop i L, List.drop_eq_getElem_cons hi, hg']
        have hset : ∀ z : List Inc × Nat × Nat, L.set i z = L.take i ++ z :: L.drop (i + 1) := fun z => List.set_eq_take_append_cons_drop .. |>.trans (if_pos hi)
        obtain ⟨hb1, hb2, hb3⟩ := hb
        have hsafe := hb1 (x :: xs, a, b) (List.mem_of_getElem? hg)
        have fin : ∀ (a' b' : Nat) (st : Stats), Safe a' b' xs → st.uncached + a' + s.stats.readCerts = s.stats.uncached + a + st.readCerts →
            st.expired + b' + s.stats.readRows = s.stats.expired + b + st.readRows → ∃ L', s.todo.set i xs = L'.map (·.1) ∧ Bal st L' := by
          intro a' b' st hs1 hs2 hs3
          refine ⟨L.set i (xs, a', b'), ?_, ?_, ?_, ?_⟩
          · rw [hL, List.map_set]
          · intro z hz
            rcases List.mem_or_eq_of_mem_set hz with hz | hz
            · exact hb1 z hz
            · subst hz; exact hs1
          · rw [hset]
            rw [hsplit] at hb2
            simp only [List.map_append, List.map_cons, List.sum_append, List.sum_cons] at hb2 ⊢
            omega
          · rw [hset]
            rw [hsplit] at hb3
            simp only [List.map_append, List.map_cons, List.sum_append, List.sum_cons] at hb3 ⊢
            omega
        cases x with
        | rows => exact fin a (b + 1) _ hsafe (by simp only [apply]; try omega) (by simp only [apply]; try omega)
        | certs => exact fin (a + 1) b _ hsafe (by simp only [apply]; try omega) (by simp only [apply]; try omega)
        | bytes n => exact fin a b _ hsafe (by simp only [apply]; try omega) (by simp only [apply]; try omega)
        | uncached => have h0 : 0 < a := hsafe.1; exact fin (a - 1) b _ hsafe.2 (by simp only [apply]; try omega) (by simp only [apply]; try omega)
        | expired => have h0 : 0 < b := hsafe.1; exact fin a (b - 1) _ hsafe.2 (by simp only [apply]; try omega) (by simp only [apply]; try omega)
    · cases hs

theorem execs_bal : ∀ (es : List Ev) (s t : St), execs s es = some t → (∃ L, s.todo = L.map (·.1) ∧ Bal s.stats L) → ∃ L, t.todo = L.map (·.1) ∧ Bal t.stats L
  | [], s, t, hs, h => by cases hs; exact h
  | e :: es, s, t, hs, h => by
    have hs' : (exec s e).bind (execs · es) = some t := hs
    cases h1 : exec s e with
    | none => rw [h1] at hs'; cases hs'
    | some u =>
      rw [h1] at hs'
      exact execs_bal es u t hs' (step_bal h1 h)

theorem init_bal (H : Bytes → Bytes) (parse : Bytes → Option X509) (size : Nat) (now : Now) (parts : List (List RawLine)) :
    ∃ L, (St.init H parse size now parts).todo = L.map (·.1) ∧ Bal (St.init H parse size now parts).stats L := by
  refine ⟨parts.map (fun p => (workerTrace H parse size now ⟨[], ⟨0, 0, 0, 0, 0⟩⟩ p, 0, 0)), ?_, ?_, ?_, ?_⟩
  · simp [St.init]
  · intro x hx
    obtain ⟨p, _, rfl⟩ := List.mem_map.1 hx
    exact safe_worker H parse size now p _
  · simp [St.init, Function.comp_def]
  · simp [St.init, Function.comp_def]

theorem execs_append (es fs : List Ev) : ∀ s, execs s (es ++ fs) = (execs s es).bind (execs · fs) := by
  induction es with
  | nil => intro s; rfl
  | cons e es ih =>
    intro s
    show (exec s e).bind (execs · (es ++ fs)) = ((exec s e).bind (execs · es)).bind (execs · fs)
    cases exec s e with
    | none => rfl
    | some u => exact ih u

theorem percent_le {n d : Nat} (h : n ≤ d) : 0 ≤ safeDivide ((n : Rat) * 100) d ∧ safeDivide ((n : Rat) * 100) d ≤ 100 := by
  unfold safeDivide
  split
  · exact ⟨le_refl 0, by decide⟩
  · rename_i hd
    have hd' : (0 : Rat) < d := not_le.1 hd
    refine ⟨div_nonneg (mul_nonneg (Nat.cast_nonneg n) (by decide)) hd'.le, ?_⟩
    rw [div_le_iff₀ hd', mul_comm]
    exact mul_le_mul_of_nonneg_left (Nat.cast_le.2 h) (by decide)

/-- C205: if no worker takes a step while the four counters are loaded, the percentages printed are between 0 and 100, whatever the workers have done before. -/
theorem C205_percent_partial (H : Bytes → Bytes) (parse : Bytes → Option X509) (size : Nat) (now : Now) (parts : List (List RawLine)) (es : List Ev) (t : St) (hl : Ev.load ∉ es)
    (hs : execs (St.init H parse size now parts) (es ++ [.load, .load, .load, .load]) = some t) :
    ∃ rows certs unc exp, t.shown = ⟨some rows, some certs, some unc, some exp⟩ ∧ (0 ≤ uncachedPercent certs unc ∧ uncachedPercent certs unc ≤ 100) ∧
      (0 ≤ expiredPercent rows exp ∧ expiredPercent rows exp ≤ 100) := by
  rw [execs_append] at hs
  cases hu : execs (St.init H parse size now parts) es with
  | none => rw [hu] at hs; cases hs
  | some u =>
    rw [hu] at hs
    have hsh : ∀ (es : List Ev) (s u : St), Ev.load ∉ es → execs s es = some u → u.shown = s.shown := by
      intro es
      induction es with
      | nil => intro s u _ h; cases h; rfl
      | cons e es ih =>
        intro s u hn h
        have h' : (exec s e).bind (execs · es) = some u := h
        cases h1 : exec s e with
        | none => rw [h1] at h'; cases h'
        | some v =>
          rw [h1] at h'
          rw [ih v u (fun hm => hn (List.mem_cons_of_mem _ hm)) h']
          cases e with
          | load => exact absurd List.mem_cons_self hn
          | work i =>
            simp only [exec] at h1
            split at h1 <;> cases h1
            rfl
    have h0 : u.shown = ⟨none, none, none, none⟩ := hsh es _ u hl hu
    obtain ⟨L, _, _, h2, h3⟩ := execs_bal es _ u hu (init_bal H parse size now parts)
    simp only [Option.bind_some, execs, exec, load, h0] at hs
    simp at hs
    subst hs
    exact ⟨_, _, _, _, rfl, percent_le (by omega), percent_le (by omega)⟩

/-- At any time the counters themselves are in order: no more uncached certificates than certificates, no more expired rows than rows. -/
theorem C205_counters (H : Bytes → Bytes) (parse : Bytes → Option X509) (size : Nat) (now : Now) (parts : List (List RawLine)) (es : List Ev) (t : St)
    (hs : execs (St.init H parse size now parts) es = some t) : t.stats.uncached ≤ t.stats.readCerts ∧ t.stats.expired ≤ t.stats.readRows := by
  obtain ⟨L, _, _, h2, h3⟩ := execs_bal es _ t hs (init_bal H parse size now parts)
  omega

/-- A row with a leaf and its parent, and a row that has expired. -/
def exRow : RawLine := ⟨[65, 81, 73, 68], [66, 65, 85, 61], [49, 48, 48, 46, 53], 1⟩
def exOld : RawLine := ⟨[], [], [53, 46, 53], 1⟩

/-- C205 is violated: a worker that goes on between two loads makes 200 percent of the certificates uncached, and 200 percent of the rows expired. -/
theorem C205_percent_violated : ∃ (parts : List (List RawLine)) (es : List Ev) (t : St), execs (St.init id Rows.exParse 5 ⟨50, 1⟩ parts) es = some t ∧
    t.shown = ⟨some 1, some 1, some 2, some 2⟩ ∧ uncachedPercent 1 2 = 200 ∧ expiredPercent 1 2 = 200 := by
  refine ⟨[[exRow], [exOld, exOld]], [.work 0, .load, .work 0, .load] ++ List.replicate 5 (.work 0) ++ List.replicate 6 (.work 1) ++ [.load, .load],
    ⟨⟨3, 2, 5, 4, 2⟩, [[], []], ⟨some 1, some 1, some 2, some 2⟩⟩, by decide +kernel, rfl, by decide +kernel, by decide +kernel⟩

/-- The hypotheses of `C205_percent_partial` and `C205_counters` are met: here all certificates are uncached, and all rows of the second worker have expired. -/
example : ∃ t, execs (St.init id Rows.exParse 5 ⟨50, 1⟩ [[exRow], [exOld]]) ((List.replicate 7 (.work 0) ++ List.replicate 3 (.work 1)) ++ [.load, .load, .load, .load]) = some t ∧
    t.shown = ⟨some 2, some 3, some 2, some 1⟩ :=
  ⟨⟨⟨2, 1, 5, 3, 2⟩, [[], []], ⟨some 2, some 3, some 2, some 1⟩⟩, by decide +kernel, rfl⟩

/-! ## The number of certificates written -/

/-- C204: in the pipeline of files alone, `WrittenCerts` is the number of certificates that have come to its end. -/
theorem C204_written_partial (n : Nat) (processed : List Nat) : written (filesPipeline n) processed = processed.count (n + 1) := by
  unfold written filesPipeline
  rw [List.count_eq_countP, List.countP_eq_length_filter]
  congr 1
  apply List.filter_congr
  intro i _
  rcases i with _ | i
  · simp
  · rcases Nat.lt_trichotomy i n with h | h | h
    · rw [List.getElem?_cons_succ, List.getElem?_append_left (by simpa using h)]
      simp [List.getElem?_replicate, h]
      omega
    · subst h
      simp
    · rw [List.getElem?_cons_succ, List.getElem?_append_right (by simp; omega)]
      simp
      obtain ⟨k, hk⟩ : ∃ k, i - n = k + 1 := ⟨i - n - 1, by omega⟩
      rw [hk]
      simp
      omega

/-- C204 is violated: ingest joins that pipeline with the one to the DB, which leaves its last stage out, so the number of written certificates (and their bytes) that it prints is always 0, whatever has been
written. -/
theorem C204_written_violated (n : Nat) (db : List Stage) (hdb : ∀ s ∈ db, s.counts = false) (processed : List Nat) : written (joinRaw [filesPipeline n, db]) processed = 0 := by
  have h : ∀ s ∈ joinRaw [filesPipeline n, db], s.counts = false := by
    intro s hs
    simp only [joinRaw, List.dropLast_singleton, List.flatMap_nil, List.append_nil, List.getLast?_singleton, Option.getD_some, List.mem_append, List.mem_filter] at hs
    rcases hs with ⟨h1, h2⟩ | ⟨h1, _⟩
    · simp only [filesPipeline, List.mem_cons, List.mem_append, List.mem_replicate, List.not_mem_nil, or_false] at h1
      rcases h1 with rfl | ⟨_, rfl⟩ | rfl
      · rfl
      · rfl
      · simp at h2
    · exact hdb s h1
  unfold written
  rw [List.length_eq_zero_iff, List.filter_eq_nil_iff]
  intro i _
  cases hg : (joinRaw [filesPipeline n, db])[i]? with
  | none => simp
  | some s => simp [h s (List.mem_of_getElem? hg)]

/-- The hypothesis of `C204_written_violated` is met: two certificates go all the way through. -/
example : written (joinRaw [filesPipeline 3, [⟨.source, false⟩, ⟨.stage, false⟩, ⟨.sink, false⟩]]) [0, 1, 2, 3, 4, 5, 3, 4, 5] = 0 ∧
    (joinRaw [filesPipeline 3, [⟨.source, false⟩, ⟨.stage, false⟩, ⟨.sink, false⟩]]).map (·.kind) = [.source, .stage, .stage, .stage, .stage, .sink] ∧ written (filesPipeline 3) [0, 1, 2, 3, 4, 3, 4] = 2 := by
  decide +kernel

/-! ## The numbers at the end -/

theorem step_count (x : Inc) (f : Stats → Nat) (hf : ∀ (s : Stats) (y : Inc), f (apply s y) = f s + if y = x then 1 else 0) {s t : St} {e : Ev} (hs : exec s e = some t) :
    f t.stats + (t.todo.map (·.count x)).sum = f s.stats + (s.todo.map (·.count x)).sum := by
  cases e with
  | load => cases hs; rfl
  | work i =>
    simp only [exec] at hs
    split at hs
    · rename_i y ys hy
      cases hs
      obtain ⟨hi, hg⟩ := List.getElem?_eq_some_iff.1 hy
      have hsplit : s.todo = s.todo.take i ++ (y :: ys) :: s.todo.drop (i + 1) := by
        conv => lhs; rw [← List.take_append_drop i s.todo, List.drop_eq_getElem_cons hi, hg]
      have hset : s.todo.set i ys = s.todo.take i ++ ys :: s.todo.drop (i + 1) := List.set_eq_take_append_cons_drop .. |>.trans (if_pos hi)
      show f (apply s.stats y) + ((s.todo.set i ys).map (·.count x)).sum = _
      conv => rhs; rw [hsplit]
      rw [hset, hf]
      simp only [List.map_append, List.map_cons, List.sum_append, List.sum_cons, List.count_cons, beq_iff_eq]
      omega
    · cases hs

theorem execs_count (x : Inc) (f : Stats → Nat) (hf : ∀ (s : Stats) (y : Inc), f (apply s y) = f s + if y = x then 1 else 0) : ∀ (es : List Ev) (s t : St), execs s es = some t →
    f t.stats + (t.todo.map (·.count x)).sum = f s.stats + (s.todo.map (·.count x)).sum
  | [], s, t, hs => by cases hs; rfl
  | e :: es, s, t, hs => by
    have hs' : (exec s e).bind (execs · es) = some t := hs
    cases h1 : exec s e with
    | none => rw [h1] at hs'; cases hs'
    | some u =>
      rw [h1] at hs'
      rw [execs_count x f hf es u t hs', step_count x f hf h1]

/-- A row has expired according to its last column. -/
def isExpired (now : Now) (l : RawLine) : Bool := match getExpiration l.exp with | some n => after now n | none => false

theorem chain_count (H : Bytes → Bytes) (parse : Bytes → Option X509) (size : Nat) : ∀ (ss cache : List Bytes),
    (chainTrace H parse size cache ss).count .rows = 0 ∧ (chainTrace H parse size cache ss).count .expired = 0
  | [], _ => ⟨rfl, rfl⟩
  | s :: ss, cache => by
    unfold chainTrace
    cases decodeField s with
    | none => exact ⟨rfl, rfl⟩
    | some raw =>
      dsimp only
      simp only [List.count_cons]
      split
      · simp [chain_count H parse size ss]
      · cases parse raw with
        | none => simp
        | some c => simp [List.count_cons, chain_count H parse size ss]

theorem row_count (H : Bytes → Bytes) (parse : Bytes → Option X509) (size : Nat) (now : Now) (w : W) (l : RawLine) (h : (parseLine H parse size now w l).2 ≠ .error) :
    (rowTrace H parse size now w.cache l).count .rows = 1 ∧ (rowTrace H parse size now w.cache l).count .expired = (if isExpired now l then 1 else 0) := by
  unfold rowTrace isExpired
  unfold parseLine at h
  cases hg : getExpiration l.exp with
  | none => rw [hg] at h; exact absurd rfl h
  | some n =>
    dsimp only
    by_cases ha : after now n = true
    · simp [ha]
    · simp only [ha]
      cases decodeField l.cert with
      | none => simp
      | some raw =>
        simp only [Bool.false_eq_true, if_false, List.count_cons]
        split
        · simp
        · cases parse raw with
          | none => simp
          | some c =>
            dsimp only
            split
            · simp
            · simp [List.count_cons, chain_count H parse size]

theorem worker_count (H : Bytes → Bytes) (parse : Bytes → Option X509) (size : Nat) (now : Now) : ∀ (ls : List RawLine) (w : W), (Rows.worker H parse size now w ls).2 = false →
    (workerTrace H parse size now w ls).count .rows = ls.length ∧ (workerTrace H parse size now w ls).count .expired = ls.countP (isExpired now)
  | [], _, _ => ⟨rfl, rfl⟩
  | l :: ls, w, h => by
    unfold workerTrace
    unfold Rows.worker at h
    rcases hp : parseLine H parse size now w l with ⟨w', o⟩
    rw [hp] at h
    cases o with
    | error => cases h
    | skip =>
      have hr := row_count H parse size now w l (by rw [hp]; simp)
      have ih := worker_count H parse size now ls w' h
      simp only [List.count_append, hr, ih, List.length_cons, List.countP_cons]
      exact ⟨by omega, by omega⟩
    | chain leaf ps ids =>
      have hr := row_count H parse size now w l (by rw [hp]; simp)
      have ih := worker_count H parse size now ls w' h
      simp only [List.count_append, hr, ih, List.length_cons, List.countP_cons]
      exact ⟨by omega, by omega⟩

/-- C206: when all workers have done what they got, without an error, the counters are the numbers of rows and of expired rows, in whatever order the workers were scheduled; and if every file has as many rows as its name
says, then the rows read are all the rows announced: the line says 100 percent. -/
theorem C206_rows (H : Bytes → Bytes) (parse : Bytes → Option X509) (size : Nat) (now : Now) (parts : List (List RawLine)) (files : List ((Nat × Nat) × List RawLine))
    (hparts : parts.flatten.Perm (files.flatMap (·.2))) (hok : ∀ p ∈ parts, (Rows.worker H parse size now ⟨[], ⟨0, 0, 0, 0, 0⟩⟩ p).2 = false)
    (es : List Ev) (t : St) (hs : execs (St.init H parse size now parts) es = some t) (hdone : ∀ xs ∈ t.todo, xs = []) :
    t.stats.readRows = (files.map (·.2.length)).sum ∧ t.stats.expired = (files.map (·.2.countP (isExpired now))).sum ∧
    ((∀ f ∈ files, f.1.1 ≤ f.1.2 ∧ f.2.length = f.1.2 + 1 - f.1.1) → t.stats.readRows = totalRows (files.map (·.1)) ∧
      (files ≠ [] → safeDivide (t.stats.readRows * 100) (totalRows (files.map (·.1))) = 100)) := by
  have hz : ∀ x : Inc, (t.todo.map (·.count x)).sum = 0 := by
    intro x
    have : t.todo.map (·.count x) = t.todo.map (fun _ => 0) := List.map_congr_left (fun xs hx => by rw [hdone xs hx]; rfl)
    rw [this]
    simp
  have h1 := execs_count .rows (·.readRows) (by intro s y; cases y <;> rfl) es _ t hs
  have h2 := execs_count .expired (·.expired) (by intro s y; cases y <;> rfl) es _ t hs
  rw [hz] at h1 h2
  simp only [St.init, List.map_map, Nat.add_zero, Nat.zero_add] at h1 h2
  have e1 : parts.map ((fun l => l.count Inc.rows) ∘ workerTrace H parse size now ⟨[], ⟨0, 0, 0, 0, 0⟩⟩) = parts.map List.length :=
    List.map_congr_left (fun p hp => (worker_count H parse size now p _ (hok p hp)).1)
  have e2 : parts.map ((fun l => l.count Inc.expired) ∘ workerTrace H parse size now ⟨[], ⟨0, 0, 0, 0, 0⟩⟩) = parts.map (List.countP (isExpired now)) :=
    List.map_congr_left (fun p hp => (worker_count H parse size now p _ (hok p hp)).2)
  have r1 : t.stats.readRows = (files.map (·.2.length)).sum := by
    rw [h1, e1, ← List.length_flatten, hparts.length_eq, List.length_flatMap]
  have r2 : t.stats.expired = (files.map (·.2.countP (isExpired now))).sum := by
    rw [h2, e2, ← List.countP_flatten, hparts.countP_eq, List.countP_flatMap]
    rfl
  refine ⟨r1, r2, fun hf => ?_⟩
  have htot : ∀ (fs : List ((Nat × Nat) × List RawLine)) (k : Nat), (∀ f ∈ fs, f.1.1 ≤ f.1.2 ∧ f.2.length = f.1.2 + 1 - f.1.1) →
      (fs.map (·.1)).foldl (fun n f => n + estimate f) k = k + (fs.map (·.2.length)).sum := by
    intro fs
    induction fs with
    | nil => intro k _; rfl
    | cons f fs ih =>
      intro k h
      have h0 := h f List.mem_cons_self
      simp only [List.map_cons, List.foldl_cons, List.sum_cons]
      rw [ih _ (fun g hg => h g (List.mem_cons_of_mem _ hg))]
      unfold estimate
      omega
  have heq : t.stats.readRows = totalRows (files.map (·.1)) := by
    unfold totalRows
    rw [r1, htot files 0 hf, Nat.zero_add]
  refine ⟨heq, fun hne => ?_⟩
  have hpos : 0 < totalRows (files.map (·.1)) := by
    rw [← heq, r1]
    cases files with
    | nil => exact absurd rfl hne
    | cons f fs =>
      have := hf f List.mem_cons_self
      simp only [List.map_cons, List.sum_cons]
      omega
  rw [heq]
  unfold safeDivide
  have hp : (0 : Rat) < (totalRows (files.map (·.1)) : Rat) := Nat.cast_pos.2 hpos
  rw [if_neg (not_le.2 hp), mul_comm, mul_div_assoc, div_self hp.ne', mul_one]

/-- The hypotheses of `C206_rows` are met: two files, two workers. -/
example : ∃ t, execs (St.init id Rows.exParse 5 ⟨50, 1⟩ [[exRow], [exOld]]) (List.replicate 3 (.work 1) ++ List.replicate 7 (.work 0)) = some t ∧ (∀ xs ∈ t.todo, xs = []) ∧
    (∀ p ∈ [[exRow], [exOld]], (Rows.worker id Rows.exParse 5 ⟨50, 1⟩ ⟨[], ⟨0, 0, 0, 0, 0⟩⟩ p).2 = false) ∧
    (∀ f ∈ [((0, 0), [exRow]), ((1, 1), [exOld])], f.1.1 ≤ f.1.2 ∧ f.2.length = f.1.2 + 1 - f.1.1) :=
  ⟨⟨⟨2, 1, 5, 3, 2⟩, [[], []], ⟨none, none, none, none⟩⟩, by decide +kernel, by decide, by decide +kernel, by decide⟩

end Fpki.IngestStats
