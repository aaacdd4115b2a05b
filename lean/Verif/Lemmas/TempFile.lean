import Verif.Model.TempFile
import Verif.Lemmas.ListSet
import Verif.Lemmas.Bridge
import Mathlib.Data.List.Nodup
/-! # Lemmas about the temporary CSV files -/
namespace Fpki.TempFile

/-! ## Bytes -/

theorem copyAt_mid (a m z b : Bytes) (h : m.length = b.length) : copyAt (a ++ (m ++ z)) a.length b = a ++ (b ++ z) := by
  unfold copyAt
  have h1 : (a ++ (m ++ z)).length - a.length = b.length + z.length := by simp [List.length_append, h]
  rw [h1, List.take_left, List.take_of_length_le (by omega : b.length ≤ b.length + z.length), ← List.append_assoc a m z,
    List.drop_left' (by simp [h])]
  simp

theorem split4 (st : Bytes) (p n s : Nat) (h : p + n + s < st.length) :
    ∃ a x y z rest, st = a ++ (x ++ (y ++ (z :: rest))) ∧ a.length = p ∧ x.length = n ∧ y.length = s := by
  have h3 : (((st.drop p).drop n).drop s).length ≠ 0 := by simp [List.length_drop]; omega
  obtain ⟨z, rest, hz⟩ := List.exists_cons_of_ne_nil (by intro h; rw [h] at h3; exact h3 rfl : ((st.drop p).drop n).drop s ≠ [])
  refine ⟨st.take p, (st.drop p).take n, ((st.drop p).drop n).take s, z, rest, ?_, ?_, ?_, ?_⟩
  · rw [← hz, List.take_append_drop, List.take_append_drop, List.take_append_drop]
  · simp; omega
  · simp; omega
  · simp; omega

theorem layOut_eq (st pre suf : Bytes) (h : pre.length + numRandom + suf.length < st.length) :
    ∃ x rest, layOut st pre suf = pre ++ (x ++ (suf ++ (0 :: rest))) ∧ x.length = numRandom ∧
      (pre ++ (x ++ (suf ++ ((0 : Byte) :: rest)))).length = st.length := by
  obtain ⟨a, x, y, z, rest, hst, ha, hx, hy⟩ := split4 st pre.length numRandom suf.length h
  have e1 : copyAt st 0 pre = pre ++ (x ++ (y ++ (z :: rest))) := by
    have := copyAt_mid [] a (x ++ (y ++ (z :: rest))) pre ha
    simpa [hst] using this
  have e2 : copyAt (copyAt st 0 pre) (pre.length + numRandom) suf = pre ++ (x ++ (suf ++ (z :: rest))) := by
    rw [e1]
    have := copyAt_mid (pre ++ x) y (z :: rest) suf hy
    rw [List.length_append, hx] at this
    simpa using this
  obtain ⟨x0, x1, rfl⟩ : ∃ x0 x1, x = x0 :: x1 := by
    cases x with
    | nil => simp [numRandom] at hx
    | cons a b => exact ⟨a, b, rfl⟩
  have e3 : stringToBytePtr (pre ++ ((x0 :: x1) ++ (suf ++ (z :: rest)))) pre = pre ++ ((0 :: x1) ++ (suf ++ (z :: rest))) := by
    unfold stringToBytePtr
    have hs : (pre ++ ((x0 :: x1) ++ (suf ++ (z :: rest)))).set pre.length 0 = pre ++ ((0 :: x1) ++ (suf ++ (z :: rest))) := by
      rw [List.set_append_right _ _ (Nat.le_refl _)]; simp
    rw [hs]
    have := copyAt_mid [] pre ((0 :: x1) ++ (suf ++ (z :: rest))) pre rfl
    simpa using this
  refine ⟨0 :: x1, rest, ?_, ?_, ?_⟩
  · unfold layOut
    rw [e2, e3, ← List.append_assoc, ← List.append_assoc, List.set_append_right _ _ (by simp at hx ⊢; omega)]
    have : pre.length + numRandom + suf.length - (pre ++ (0 :: x1) ++ suf).length = 0 := by simp at hx ⊢; omega
    rw [this]; simp
  · simpa using hx
  · rw [hst]; simp [ha, hy]

theorem randomChars_length (v : Nat → Nat) : (randomChars v).length = numRandom := by simp [randomChars]

theorem charMap_mem (n : Nat) : charMap.getD (n % charMap.length) 0 ∈ charMap := by
  have h : n % charMap.length < charMap.length := Nat.mod_lt _ (by decide)
  simp only [List.getD_eq_getElem?_getD, List.getElem?_eq_getElem h, Option.getD_some]
  exact List.getElem_mem h

theorem charMap_ne_zero : ∀ c ∈ charMap, c ≠ 0 := by decide

theorem randomChars_mem (v : Nat → Nat) : ∀ c ∈ randomChars v, c ∈ charMap := by
  intro c hc
  simp only [randomChars, List.mem_map] at hc
  obtain ⟨i, _, rfl⟩ := hc
  exact charMap_mem _

theorem cstr_eq (a rest : Bytes) (h : ∀ c ∈ a, c ≠ 0) : cstr (a ++ (0 :: rest)) = a := by
  unfold cstr
  rw [List.takeWhile_append_of_pos (by intro c hc; simpa using h c hc)]
  simp

theorem attempts_spec (ex : Bytes → Bool) (pre suf : Bytes) (hp : ∀ c ∈ pre, c ≠ 0) (hsf : ∀ c ∈ suf, c ≠ 0) (v : Nat → Nat → Nat) (n : Nat) :
    ∀ (a : Nat) (x rest : Bytes), x.length = numRandom → ∃ y, y.length = numRandom ∧
      (attempts ex pre.length (pre ++ (x ++ (suf ++ (0 :: rest)))) v a n).1 = pre ++ (y ++ (suf ++ (0 :: rest))) ∧
      ((∃ m < n, (attempts ex pre.length (pre ++ (x ++ (suf ++ (0 :: rest)))) v a n).2 = some (pre ++ y ++ suf) ∧ y = randomChars (v (a + m)) ∧
          ex (pre ++ y ++ suf) = false ∧ ∀ m' < m, ex (pre ++ randomChars (v (a + m')) ++ suf) = true) ∨
       ((attempts ex pre.length (pre ++ (x ++ (suf ++ (0 :: rest)))) v a n).2 = none ∧
          ∀ m < n, ex (pre ++ randomChars (v (a + m)) ++ suf) = true)) := by
  induction n with
  | zero => intro a x rest hx; exact ⟨x, hx, rfl, .inr ⟨rfl, by intro m hm; omega⟩⟩
  | succ n ih =>
    intro a x rest hx
    have hc : copyAt (pre ++ (x ++ (suf ++ (0 :: rest)))) pre.length (randomChars (v a)) = pre ++ (randomChars (v a) ++ (suf ++ (0 :: rest))) :=
      copyAt_mid _ _ _ _ (by rw [hx, randomChars_length])
    have hz : cstr (pre ++ (randomChars (v a) ++ (suf ++ (0 :: rest)))) = pre ++ randomChars (v a) ++ suf := by
      have := cstr_eq (pre ++ randomChars (v a) ++ suf) rest (by
        intro c hc
        simp only [List.mem_append] at hc
        rcases hc with (hc | hc) | hc
        · exact hp c hc
        · exact charMap_ne_zero c (randomChars_mem _ c hc)
        · exact hsf c hc)
      simpa using this
    simp only [attempts, hc, hz]
    by_cases he : ex (pre ++ randomChars (v a) ++ suf) = true
    · rw [if_pos he]
      obtain ⟨y, hy, h1, h2⟩ := ih (a + 1) (randomChars (v a)) rest (randomChars_length _)
      refine ⟨y, hy, h1, ?_⟩
      rcases h2 with ⟨m, hm, h2, h3, h4, h5⟩ | ⟨h2, h3⟩
      · refine .inl ⟨m + 1, by omega, h2, by rw [h3]; congr 2; omega, h4, ?_⟩
        intro m' hm'
        cases m' with
        | zero => exact he
        | succ m' => have := h5 m' (by omega); rwa [show a + 1 + m' = a + (m' + 1) by omega] at this
      · refine .inr ⟨h2, ?_⟩
        intro m hm
        cases m with
        | zero => exact he
        | succ m => have := h3 m (by omega); rwa [show a + 1 + m = a + (m + 1) by omega] at this
    · rw [if_neg he]
      exact ⟨randomChars (v a), randomChars_length _, rfl, .inl ⟨0, by omega, rfl, rfl, by simpa using he, by intro m' hm'; omega⟩⟩

theorem createTempFile_spec (ex : Bytes → Bool) (st pre suf : Bytes) (hp : ∀ c ∈ pre, c ≠ 0) (hsf : ∀ c ∈ suf, c ≠ 0) (v : Nat → Nat → Nat)
    (h : pre.length + numRandom + suf.length < st.length) :
    ((createTempFile ex st pre suf v).1).length = st.length ∧
    ((∃ m < 10, (createTempFile ex st pre suf v).2 = some (pre ++ randomChars (v m) ++ suf) ∧
        ((createTempFile ex st pre suf v).1).take (pre.length + numRandom + suf.length) = pre ++ randomChars (v m) ++ suf ∧
        ex (pre ++ randomChars (v m) ++ suf) = false ∧ ∀ m' < m, ex (pre ++ randomChars (v m') ++ suf) = true) ∨
     ((createTempFile ex st pre suf v).2 = none ∧ ∀ m < 10, ex (pre ++ randomChars (v m) ++ suf) = true)) := by
  obtain ⟨x, rest, e, hx, hl⟩ := layOut_eq st pre suf h
  unfold createTempFile
  rw [e]
  obtain ⟨y, hy, h1, h2⟩ := attempts_spec ex pre suf hp hsf v 10 0 x rest hx
  refine ⟨?_, ?_⟩
  · rw [h1]; simp only [List.length_append, List.length_cons] at hl ⊢; omega
  · rcases h2 with ⟨m, hm, h2, h3, h4, h5⟩ | ⟨h2, h3⟩
    · simp only [Nat.zero_add] at h3 h5
      subst h3
      refine .inl ⟨m, hm, h2, ?_, h4, h5⟩
      rw [h1]
      have : pre ++ (randomChars (v m) ++ (suf ++ (0 :: rest))) = (pre ++ randomChars (v m) ++ suf) ++ (0 :: rest) := by simp
      rw [this, List.take_left' (by simp [randomChars_length]; omega)]
    · exact .inr ⟨h2, by simpa using h3⟩

/-! ## The disk -/

theorem exists_iff {d : Disk} {p : Bytes} : d.exists p = true ↔ p ∈ d.map Prod.fst := by
  simp [Disk.exists, List.any_eq_true]

theorem not_exists_iff {d : Disk} {p : Bytes} : d.exists p = false ↔ p ∉ d.map Prod.fst := by
  rw [← exists_iff]; simp

theorem append_fresh {d : Disk} {p c : Bytes} (h : d.exists p = false) : Disk.append ((p, []) :: d) p c = (p, c) :: d := by
  have h1 : Disk.exists ((p, []) :: d) p = true := by simp [Disk.exists]
  unfold Disk.append
  rw [if_pos h1]
  simp only [List.map_cons, beq_self_eq_true, if_true, List.nil_append, List.cons.injEq, true_and]
  rw [List.map_congr_left (g := id)]
  · simp
  · intro f hf
    have : (f.1 == p) = false := by
      have := not_exists_iff.mp h
      simp only [List.mem_map, not_exists, not_and] at this
      simpa using this f hf
    simp [this]

theorem read_of_mem {d : Disk} (h : (d.map Prod.fst).Nodup) {p c : Bytes} (hm : (p, c) ∈ d) : d.read p = some c := by
  induction d with
  | nil => cases hm
  | cons f fs ih =>
    simp only [List.map_cons, List.nodup_cons] at h
    simp only [Disk.read, List.find?_cons]
    rcases List.mem_cons.mp hm with hm | hm
    · subst hm; simp
    · have : (f.1 == p) = false := by
        simp only [beq_eq_false_iff_ne]
        intro e; subst e
        exact h.1 (List.mem_map.mpr ⟨_, hm, rfl⟩)
      rw [this]
      exact ih h.2 hm

theorem remove_perm {d : Disk} (h : (d.map Prod.fst).Nodup) {p c : Bytes} (hm : (p, c) ∈ d) : d.Perm ((p, c) :: d.remove p) := by
  induction d with
  | nil => cases hm
  | cons f fs ih =>
    simp only [List.map_cons, List.nodup_cons] at h
    simp only [Disk.remove, List.eraseP_cons]
    rcases List.mem_cons.mp hm with hm | hm
    · subst hm; simp
    · have : (f.1 == p) = false := by
        simp only [beq_eq_false_iff_ne]
        intro e; subst e
        exact h.1 (List.mem_map.mpr ⟨_, hm, rfl⟩)
      rw [this]
      exact ((ih h.2 hm).cons f).trans (List.Perm.swap _ _ _)

/-! ## A lane -/

def Maker.toks : Maker → List Tok
  | .making made _ => made
  | .sending ts => ts
  | _ => []

def Maker.todo : Maker → List Bytes
  | .making _ todo => todo
  | _ => []

def Loader.toks : Loader → List Tok
  | .loading done todo => done ++ todo
  | .sending ts => ts
  | _ => []

/-- the files that are not loaded yet -/
def Loader.pend : Loader → List Tok
  | .loading _ todo => todo
  | _ => []

def Loader.busy : Loader → Nat
  | .loading _ _ => 1
  | .sending _ => 1
  | .ended => 1
  | .idle => 0

def Remover.toks : Remover → List Tok
  | .removing todo _ => todo
  | _ => []

/-- whether the maker has a name in ring `j` -/
def Maker.holds (m : Maker) (j : Nat) : Nat := if m = .ended ∨ j < m.toks.length then 1 else 0

/-- the name is in a slot that was handed out at most `n + 1` rotations ago -/
def Lane.at (l : Lane) (t : Tok) (n : Nat) : Prop := ∃ r m, m ≤ n ∧ l.rings[t.ring]? = some r ∧ t.slot = (r.cur + 7 - m) % 8

structure Ok (l : Lane) : Prop where
  rings : l.rings.length = l.kind.prefixes.length
  ring : ∀ r ∈ l.rings, r.cur < 8 ∧ r.slots.length = 8 ∧ ∀ s ∈ r.slots, s.length = 2048
  making : ∀ made todo, l.maker = .making made todo → made.map (·.ring) = List.range made.length ∧ made.length + todo.length = l.kind.prefixes.length
  sending : ∀ ts, l.maker = .sending ts → ts.map (·.ring) = List.range l.kind.prefixes.length
  atM : ∀ t ∈ l.maker.toks, l.at t 0
  atL : ∀ t ∈ l.loader.toks, l.at t (l.maker.holds t.ring)
  atR : ∀ t ∈ l.remover.toks, l.at t (l.maker.holds t.ring + l.loader.busy)
  named : ∀ t ∈ l.remover.toks ++ l.loader.toks ++ l.maker.toks, ∃ c, l.created[t.id]? = some (l.view t, c)
  idsR : (l.removed.map Prod.fst ++ (l.remover.toks ++ l.loader.toks ++ l.maker.toks).map (·.id)).Pairwise (· < ·)
  ltR : ∀ i ∈ l.removed.map Prod.fst ++ (l.remover.toks ++ l.loader.toks ++ l.maker.toks).map (·.id), i < l.created.length
  idsL : (l.loaded.map Prod.fst ++ (l.loader.pend ++ l.maker.toks).map (·.id)).Pairwise (· < ·)
  ltL : ∀ i ∈ l.loaded.map Prod.fst ++ (l.loader.pend ++ l.maker.toks).map (·.id), i < l.created.length
  loaded : ∀ e ∈ l.loaded, ∃ n, l.created[e.1]? = some (n, e.2)
  removed : ∀ e ∈ l.removed, ∃ c, l.created[e.1]? = some (e.2, c)
  made : ∀ e ∈ l.created, ∃ pre ∈ l.kind.prefixes, ∃ v, e.1 = pre ++ randomChars v ++ suffix

/-- Nothing has failed so far. -/
structure Clean (l : Lane) : Prop where
  idsR : l.removed.map Prod.fst ++ (l.remover.toks ++ l.loader.toks ++ l.maker.toks).map (·.id) = List.range l.created.length
  idsL : l.loaded.map Prod.fst ++ (l.loader.pend ++ l.maker.toks).map (·.id) = List.range l.created.length
  texts : l.created.map Prod.snd ++ l.maker.todo ++ l.input.flatten = l.given.flatten
  endR : l.remover = .ended → l.loader = .ended
  endL : l.loader = .ended → l.maker = .ended
  endM : l.maker = .ended → l.input = []
  good : ∀ todo bad, l.remover = .removing todo bad → bad = false
  size : l.loader.toks.length ≤ l.kind.prefixes.length ∧ l.remover.toks.length ≤ l.kind.prefixes.length

theorem prefixes_ok (k : Kind) : ∀ pre ∈ k.prefixes, pre.length + numRandom + suffix.length < 2048 ∧ ∀ c ∈ pre, c ≠ 0 := by
  cases k <;> decide +kernel

theorem suffix_ok : ∀ c ∈ suffix, c ≠ 0 := by decide +kernel

/-! ### Files that are left -/

/-- The files that were created and not removed. -/
def Lane.left (l : Lane) : List (Bytes × Bytes) :=
  (l.created.zipIdx.filter fun p => !(l.removed.map Prod.fst).contains p.2).map Prod.fst

theorem filter_zipIdx_lt (l : List α) (n i : Nat) (h : i < n) : (l.zipIdx n).filter (fun p => p.2 == i) = [] := by
  rw [List.filter_eq_nil_iff]
  intro p hp
  have := List.le_snd_of_mem_zipIdx hp
  simp; omega

theorem filter_zipIdx (l : List α) (n k : Nat) : (l.zipIdx n).filter (fun p => p.2 == n + k) = (l[k]?).toList.map fun a => (a, n + k) := by
  induction l generalizing n k with
  | nil => simp
  | cons x xs ih =>
    rw [List.zipIdx_cons, List.filter_cons]
    cases k with
    | zero => simp [filter_zipIdx_lt]
    | succ k =>
      have := ih (n + 1) k
      rw [show n + 1 + k = n + (k + 1) by omega] at this
      simp [this]

theorem left_remove {created : List (Bytes × Bytes)} {ids : List Nat} {i : Nat} {e : Bytes × Bytes} (h : created[i]? = some e) (hi : i ∉ ids) :
    ((created.zipIdx.filter fun p => !ids.contains p.2).map Prod.fst).Perm
      (e :: (created.zipIdx.filter fun p => !(ids ++ [i]).contains p.2).map Prod.fst) := by
  have h1 := List.filter_append_perm (fun p : (Bytes × Bytes) × Nat => p.2 == i) (created.zipIdx.filter fun p => !ids.contains p.2)
  have h2 : (created.zipIdx.filter fun p => !ids.contains p.2).filter (fun p => p.2 == i) = [(e, i)] := by
    rw [List.filter_filter]
    have : (fun p : (Bytes × Bytes) × Nat => p.2 == i && !ids.contains p.2) = fun p => p.2 == i := by
      funext p
      by_cases hp : p.2 = i
      · simp [hp, hi]
      · simp [hp]
    rw [this]
    have := filter_zipIdx created 0 i
    simpa [h] using this
  have h3 : (created.zipIdx.filter fun p => !ids.contains p.2).filter (fun p => !(p.2 == i)) =
      created.zipIdx.filter fun p => !(ids ++ [i]).contains p.2 := by
    rw [List.filter_filter]
    congr 1
    funext p
    by_cases hp : p.2 = i <;> simp [hp]
  rw [h2, h3] at h1
  exact (h1.map Prod.fst).symm

theorem left_create {created : List (Bytes × Bytes)} {ids : List Nat} {e : Bytes × Bytes} (h : ∀ i ∈ ids, i < created.length) :
    (((created ++ [e]).zipIdx.filter fun p => !ids.contains p.2).map Prod.fst) =
      (created.zipIdx.filter fun p => !ids.contains p.2).map Prod.fst ++ [e] := by
  rw [List.zipIdx_append]
  have : created.length ∉ ids := fun hm => Nat.lt_irrefl _ (h _ hm)
  simp [List.filter_append, this]

theorem mem_left {l : Lane} {i : Nat} {e : Bytes × Bytes} (h : l.created[i]? = some e) (hi : i ∉ l.removed.map Prod.fst) : e ∈ l.left := by
  have h1 := left_remove h hi
  exact h1.mem_iff.mpr (List.mem_cons_self ..)

/-! ### Creating one file -/

/-- What `createFile` changes: one ring is rotated, and its former current slot may change. -/
structure Rot (l l' : Lane) (j : Nat) (r r' : Ring) : Prop where
  same : l' = { l with rings := l'.rings }
  len : l'.rings.length = l.rings.length
  other : ∀ i, i ≠ j → l'.rings[i]? = l.rings[i]?
  old : l.rings[j]? = some r
  new : l'.rings[j]? = some r'
  cur : r'.cur = (r.cur + 1) % 8
  slots : ∀ i, i ≠ r.cur → r'.slots[i]? = r.slots[i]?

theorem createFile_spec {l l' : Lane} (h : Ok l) {d : Disk} {j : Nat} {v : Nat → Nat → Nat} {res : Option (Tok × Bytes)}
    (he : l.createFile d j v = some (l', res)) :
    ∃ r r', Rot l l' j r r' ∧ (∀ r ∈ l'.rings, r.cur < 8 ∧ r.slots.length = 8 ∧ ∀ s ∈ r.slots, s.length = 2048) ∧
      ∀ t p, res = some (t, p) → t.id = l.created.length ∧ t.ring = j ∧ t.slot = r.cur ∧ l'.view t = p ∧ d.exists p = false ∧
        ∃ pre ∈ l.kind.prefixes, ∃ v, p = pre ++ randomChars v ++ suffix := by
  unfold Lane.createFile at he
  split at he
  case h_2 => exact absurd he (by simp)
  rename_i r pre hr hpre
  split at he
  case h_2 => exact absurd he (by simp)
  rename_i st hst
  simp only [Option.some.injEq, Prod.mk.injEq] at he
  obtain ⟨hl, hres⟩ := he
  have hrm := List.mem_of_getElem? hr
  obtain ⟨hc, hsl, hs⟩ := h.ring r hrm
  have hpm := List.mem_of_getElem? hpre
  obtain ⟨hp1, hp2⟩ := prefixes_ok l.kind pre hpm
  have hstl : st.length = 2048 := hs st (List.mem_of_getElem? hst)
  obtain ⟨hlen, hcases⟩ := createTempFile_spec d.exists st pre suffix hp2 suffix_ok v (by omega)
  have hj := Bridge.lt_of_get hr
  refine ⟨r, { r.rotate with slots := r.slots.set r.cur (createTempFile d.exists st pre suffix v).1 }, ?_, ?_, ?_⟩
  · subst hl
    refine ⟨rfl, by simp, ?_, hr, ?_, rfl, ?_⟩
    · intro i hi
      simp [List.getElem?_set, Ne.symm hi]
    · simp [List.getElem?_set, hj]
    · intro i hi
      simp [List.getElem?_set, Ne.symm hi]
  · subst hl
    intro q hq
    rcases List.mem_or_eq_of_mem_set hq with hq | hq
    · exact h.ring q hq
    · subst hq
      refine ⟨Nat.mod_lt _ (by decide), by simpa using hsl, ?_⟩
      intro s hs'
      rcases List.mem_or_eq_of_mem_set hs' with hs' | hs'
      · exact hs s hs'
      · rw [hs', hlen, hstl]
  · intro t p htp
    rcases hcases with ⟨m, _, h2, h3, h4, _⟩ | ⟨h2, _⟩
    · rw [h2, Option.map_some] at hres
      rw [htp] at hres
      simp only [Option.some.injEq, Prod.mk.injEq] at hres
      obtain ⟨rfl, rfl⟩ := hres
      refine ⟨rfl, rfl, rfl, ?_, h4, pre, hpm, v m, rfl⟩
      subst hl
      simp only [Lane.view, List.getElem?_set, if_true, hj]
      rw [if_pos (by omega)]
      simpa using h3
    · rw [h2, Option.map_none] at hres
      rw [htp] at hres; cases hres

theorem Rot.at_other {l l' : Lane} {j : Nat} {r r' : Ring} (h : Rot l l' j r r') {t : Tok} {n : Nat} (hj : t.ring ≠ j) (ha : l.at t n) : l'.at t n := by
  obtain ⟨q, m, hm, hq, hs⟩ := ha
  exact ⟨q, m, hm, by rw [h.other _ hj]; exact hq, hs⟩

theorem Rot.at_same {l l' : Lane} {j : Nat} {r r' : Ring} (h : Rot l l' j r r') (hc : r.cur < 8) {t : Tok} {n : Nat} (hj : t.ring = j) (hn : n ≤ 5)
    (ha : l.at t n) : l'.at t (n + 1) := by
  obtain ⟨q, m, hm, hq, hs⟩ := ha
  refine ⟨r', m + 1, by omega, by rw [hj]; exact h.new, ?_⟩
  rw [hj, h.old] at hq
  cases hq
  rw [hs, h.cur]; omega

theorem Rot.view_other {l l' : Lane} {j : Nat} {r r' : Ring} (h : Rot l l' j r r') {t : Tok} (hj : t.ring ≠ j) : l'.view t = l.view t := by
  simp only [Lane.view, h.other _ hj]

theorem Rot.view_same {l l' : Lane} {j : Nat} {r r' : Ring} (h : Rot l l' j r r') (hc : r.cur < 8) {t : Tok} {n : Nat} (hj : t.ring = j) (hn : n ≤ 5)
    (ha : l.at t n) : l'.view t = l.view t := by
  obtain ⟨q, m, hm, hq, hs⟩ := ha
  rw [hj, h.old] at hq
  cases hq
  simp only [Lane.view, hj, h.old, h.new]
  rw [h.slots _ (by omega)]

theorem getElem?_append_left' {l : List α} {a x : α} {i : Nat} (h : l[i]? = some x) : (l ++ [a])[i]? = some x := by
  rw [List.getElem?_append_left (Bridge.lt_of_get h)]; exact h

/-- The rings and the names held by loader and remover survive the creation of file `made.length` of the next batch. -/
theorem rot_holds {l l' : Lane} (h : Ok l) {made : List Tok} {todo : List Bytes} (hm : l.maker = .making made todo) {r r' : Ring}
    (hr : Rot l l' made.length r r') :
    (∀ t ∈ l.loader.toks, l'.at t (if t.ring < made.length + 1 then 1 else 0) ∧ l'.view t = l.view t) ∧
    (∀ t ∈ l.remover.toks, l'.at t ((if t.ring < made.length + 1 then 1 else 0) + l.loader.busy) ∧ l'.view t = l.view t) ∧
    (∀ t ∈ made, l'.at t 0 ∧ l'.view t = l.view t) := by
  have hc : r.cur < 8 := (h.ring r (List.mem_of_getElem? hr.old)).1
  have hb : l.loader.busy ≤ 1 := by cases l.loader <;> simp [Loader.busy]
  have hh : ∀ i, l.maker.holds i = if i < made.length then 1 else 0 := by intro i; simp [Maker.holds, hm, Maker.toks]
  refine ⟨?_, ?_, ?_⟩
  · intro t ht
    have ha := h.atL t ht
    rw [hh] at ha
    by_cases hj : t.ring = made.length
    · rw [if_neg (by omega)] at ha
      rw [if_pos (by omega)]
      exact ⟨hr.at_same hc hj (by omega) ha, hr.view_same hc hj (by omega) ha⟩
    · have : (if t.ring < made.length + 1 then 1 else 0) = (if t.ring < made.length then 1 else 0) := by split <;> split <;> omega
      rw [this]
      exact ⟨hr.at_other hj ha, hr.view_other hj⟩
  · intro t ht
    have ha := h.atR t ht
    rw [hh] at ha
    by_cases hj : t.ring = made.length
    · rw [if_neg (by omega)] at ha
      rw [if_pos (by omega)]
      refine ⟨?_, hr.view_same hc hj (by omega) ha⟩
      have := hr.at_same hc hj (by omega) ha
      rwa [Nat.zero_add, Nat.add_comm] at this
    · have : (if t.ring < made.length + 1 then 1 else 0) = (if t.ring < made.length then 1 else 0) := by split <;> split <;> omega
      rw [this]
      exact ⟨hr.at_other hj ha, hr.view_other hj⟩
  · intro t ht
    have ha := h.atM t (by rw [hm]; exact ht)
    have hj : t.ring ≠ made.length := by
      have h1 : t.ring ∈ made.map (·.ring) := List.mem_map.mpr ⟨t, ht, rfl⟩
      rw [(h.making _ _ hm).1] at h1
      simp at h1; omega
    exact ⟨hr.at_other hj ha, hr.view_other hj⟩

/-- The effect of one step on the file system. -/
inductive Effect (l l' : Lane) (d d' : Disk) : Prop
  | none (hd : d' = d) (hl : l'.left = l.left)
  | create (p c : Bytes) (hp : d.exists p = false) (hd : d' = (p, c) :: d) (hl : l'.left = l.left ++ [(p, c)])
  | remove (p c : Bytes) (hm : (p, c) ∈ l.left) (hd : d' = d.remove p) (hl : l.left.Perm ((p, c) :: l'.left))

theorem pairwise_snoc {l : List Nat} {n : Nat} (h : l.Pairwise (· < ·)) (hl : ∀ i ∈ l, i < n) : (l ++ [n]).Pairwise (· < ·) := by
  rw [List.pairwise_append]
  exact ⟨h, by simp, by intro a ha b hb; simp at hb; subst hb; exact hl a ha⟩

theorem afterMake_toks (made : List Tok) (todo : List Bytes) : (afterMake made todo).toks = made := by
  unfold afterMake; split <;> rfl

theorem afterMake_todo (made : List Tok) (todo : List Bytes) : (afterMake made todo).todo = todo := by
  unfold afterMake
  split
  · rename_i h; simp at h; subst h; rfl
  · rfl

theorem afterLoad_toks (done todo : List Tok) : (afterLoad done todo).toks = done ++ todo := by
  unfold afterLoad
  split
  · rename_i h; simp at h; subst h; simp [Loader.toks]
  · rfl

theorem afterLoad_pend (done todo : List Tok) : (afterLoad done todo).pend = todo := by
  unfold afterLoad
  split
  · rename_i h; simp at h; subst h; rfl
  · rfl

theorem afterLoad_busy (done todo : List Tok) : (afterLoad done todo).busy = 1 := by unfold afterLoad; split <;> rfl

theorem afterRemove_toks (todo : List Tok) (bad : Bool) : (afterRemove todo bad).toks = todo := by
  unfold afterRemove
  split
  · rename_i h; simp at h; subst h; split <;> rfl
  · rfl

/-- After a successful creation, whatever the maker does next with `made ++ [t]`. -/
theorem ok_created {l l' : Lane} (h : Ok l) {d : Disk} {made : List Tok} {c0 : Bytes} {todo : List Bytes} (hm : l.maker = .making made (c0 :: todo))
    {v : Nat → Nat → Nat} {t : Tok} {p : Bytes} (he : l.createFile d made.length v = some (l', some (t, p))) :
    Ok { l' with maker := afterMake (made ++ [t]) todo, created := l'.created ++ [(p, c0)] } := by
  obtain ⟨r, r', hr, hring, hres⟩ := createFile_spec h he
  obtain ⟨hid, htr, hts, hview, _, hname⟩ := hres t p rfl
  obtain ⟨hL, hR, hM⟩ := rot_holds h hm hr
  obtain ⟨hmk1, hmk2⟩ := h.making _ _ hm
  have hs := hr.same
  generalize hrs : l'.rings = rs at hs
  subst hs
  have hat : ∀ {t n}, Lane.at { l with rings := rs } t n →
      Lane.at { l with rings := rs, maker := afterMake (made ++ [t]) todo, created := l.created ++ [(p, c0)] } t n := fun h => h
  have hc : r.cur < 8 := (h.ring r (List.mem_of_getElem? hr.old)).1
  have hmt : l.maker.toks = made := by rw [hm]; rfl
  have hto := afterMake_toks (made ++ [t]) todo
  have hhold : ∀ i, (afterMake (made ++ [t]) todo).holds i = if i < made.length + 1 then 1 else 0 := by
    intro i
    have : afterMake (made ++ [t]) todo ≠ .ended := by unfold afterMake; split <;> simp
    simp [Maker.holds, hto, this]
  have hlt : ∀ i ∈ l.removed.map Prod.fst ++ (l.remover.toks ++ l.loader.toks ++ l.maker.toks).map (·.id), i < l.created.length := h.ltR
  refine {
    rings := hr.len.trans h.rings
    ring := hring
    making := ?_
    sending := ?_
    atM := ?_
    atL := ?_
    atR := ?_
    named := ?_
    idsR := ?_
    ltR := ?_
    idsL := ?_
    ltL := ?_
    loaded := ?_
    removed := ?_
    made := ?_ }
  · intro made' todo' h1
    simp only [afterMake] at h1
    split at h1
    · cases h1
    · cases h1
      refine ⟨?_, ?_⟩
      · simp [hmk1, htr, List.range_succ]
      · simp only [List.length_append, List.length_cons, List.length_nil] at hmk2 ⊢; omega
  · intro ts h1
    simp only [afterMake] at h1
    split at h1
    · rename_i h2
      cases h1
      simp at h2
      subst h2
      show (made ++ [t]).map (·.ring) = List.range l.kind.prefixes.length
      rw [← hmk2]
      simp [hmk1, htr, List.range_succ]
    · cases h1
  · intro q hq
    simp only [hto] at hq
    rcases List.mem_append.mp hq with hq | hq
    · exact (hM q hq).1
    · simp at hq; subst hq
      refine ⟨r', 0, Nat.le_refl _, by rw [htr]; exact hr.new, ?_⟩
      rw [hts, hr.cur]; omega
  · intro q hq
    simp only [hhold]
    exact (hL q hq).1
  · intro q hq
    simp only [hhold]
    exact (hR q hq).1
  · intro q hq
    simp only [hto] at hq
    have hv : ∀ q, Lane.view { l with rings := rs, maker := afterMake (made ++ [t]) todo, created := l.created ++ [(p, c0)] } q =
        Lane.view { l with rings := rs } q := fun _ => rfl
    simp only [List.mem_append, List.mem_singleton] at hq
    rcases hq with (hq | hq) | (hq | hq)
    · obtain ⟨c, hc⟩ := h.named q (by simp [hq])
      exact ⟨c, by rw [hv, (hR q hq).2]; exact getElem?_append_left' hc⟩
    · obtain ⟨c, hc⟩ := h.named q (by simp [hq])
      exact ⟨c, by rw [hv, (hL q hq).2]; exact getElem?_append_left' hc⟩
    · obtain ⟨c, hc⟩ := h.named q (by simp [hmt, hq])
      exact ⟨c, by rw [hv, (hM q hq).2]; exact getElem?_append_left' hc⟩
    · subst hq
      exact ⟨c0, by rw [hv, hview, hid]; simp⟩
  · have h1 := pairwise_snoc h.idsR hlt
    rw [hmt] at h1
    simp only [hto]
    simpa [hid] using h1
  · intro i hi
    simp only [hto] at hi
    have hi' : i ∈ l.removed.map Prod.fst ++ (l.remover.toks ++ l.loader.toks ++ l.maker.toks).map (·.id) ∨ i = l.created.length := by
      rw [hmt]
      simp only [List.mem_append, List.mem_map, List.mem_singleton] at hi ⊢
      rcases hi with hi | ⟨q, (hq | hq | hq), rfl⟩
      · exact .inl (.inl hi)
      · exact .inl (.inr ⟨q, .inl hq, rfl⟩)
      · exact .inl (.inr ⟨q, .inr hq, rfl⟩)
      · subst hq; exact .inr hid
    simp only [List.length_append, List.length_cons, List.length_nil]
    rcases hi' with hi' | hi'
    · have := hlt i hi'; omega
    · omega
  · have h1 := pairwise_snoc h.idsL h.ltL
    rw [hmt] at h1
    simp only [hto]
    simpa [hid] using h1
  · intro i hi
    simp only [hto] at hi
    have hi' : i ∈ l.loaded.map Prod.fst ++ (l.loader.pend ++ l.maker.toks).map (·.id) ∨ i = l.created.length := by
      rw [hmt]
      simp only [List.mem_append, List.mem_map, List.mem_singleton] at hi ⊢
      rcases hi with hi | ⟨q, (hq | hq | hq), rfl⟩
      · exact .inl (.inl hi)
      · exact .inl (.inr ⟨q, .inl hq, rfl⟩)
      · exact .inl (.inr ⟨q, .inr hq, rfl⟩)
      · subst hq; exact .inr hid
    simp only [List.length_append, List.length_cons, List.length_nil]
    rcases hi' with hi' | hi'
    · have := h.ltL i hi'; omega
    · omega
  · intro e he
    obtain ⟨n, hn⟩ := h.loaded e he
    exact ⟨n, getElem?_append_left' hn⟩
  · intro e he
    obtain ⟨n, hn⟩ := h.removed e he
    exact ⟨n, getElem?_append_left' hn⟩
  · intro e he
    rcases List.mem_append.mp he with he | he
    · exact h.made e he
    · simp at he; subst he
      exact hname

theorem at_mono {l : Lane} {t : Tok} {n m : Nat} (h : l.at t n) (hn : n ≤ m) : l.at t m := by
  obtain ⟨r, k, hk, h⟩ := h
  exact ⟨r, k, by omega, h⟩

theorem holds_le (m : Maker) (j : Nat) : m.holds j ≤ 1 := by unfold Maker.holds; split <;> omega

theorem busy_le (m : Loader) : m.busy ≤ 1 := by cases m <;> simp [Loader.busy]

/-- Changes that keep rings and logs: it is enough that every stage holds names of no more than the stages at or before it held. -/
theorem ok_move {l : Lane} (h : Ok l) (mk : Maker) (ld : Loader) (rm : Remover) (inp giv : List (List Bytes)) (f : Bool)
    (hmk : ∀ made todo, mk = .making made todo → made.map (·.ring) = List.range made.length ∧ made.length + todo.length = l.kind.prefixes.length)
    (hsd : ∀ ts, mk = .sending ts → ts.map (·.ring) = List.range l.kind.prefixes.length)
    (h1 : ∀ t ∈ mk.toks, l.at t 0) (h2 : ∀ t ∈ ld.toks, l.at t (mk.holds t.ring)) (h3 : ∀ t ∈ rm.toks, l.at t (mk.holds t.ring + ld.busy))
    (hR : List.Sublist (rm.toks ++ ld.toks ++ mk.toks) (l.remover.toks ++ l.loader.toks ++ l.maker.toks))
    (hL : List.Sublist (ld.pend ++ mk.toks) (l.loader.pend ++ l.maker.toks)) :
    Ok { l with maker := mk, loader := ld, remover := rm, input := inp, given := giv, failed := f } where
  rings := h.rings
  ring := h.ring
  making := hmk
  sending := hsd
  atM := h1
  atL := h2
  atR := h3
  named := fun t ht => h.named t (hR.subset ht)
  idsR := h.idsR.sublist ((List.Sublist.refl _).append (hR.map _))
  ltR := fun i hi => h.ltR i (((List.Sublist.refl _).append (hR.map _)).subset hi)
  idsL := h.idsL.sublist ((List.Sublist.refl _).append (hL.map _))
  ltL := fun i hi => h.ltL i (((List.Sublist.refl _).append (hL.map _)).subset hi)
  loaded := h.loaded
  removed := h.removed
  made := h.made

theorem ok_endMaker {l : Lane} (h : Ok l) (f : Bool) : Ok { l with maker := .ended, failed := f } := by
  refine ok_move h .ended l.loader l.remover l.input l.given f (by intro _ _ h; cases h) (by intro _ h; cases h) (by intro t ht; cases ht) ?_ ?_ ?_ ?_
  · intro t ht
    exact at_mono (h.atL t ht) (by simpa [Maker.holds] using holds_le l.maker t.ring)
  · intro t ht
    refine at_mono (h.atR t ht) ?_
    have := holds_le l.maker t.ring
    simp [Maker.holds] at this ⊢; exact this
  · simpa [Maker.toks] using (List.sublist_append_left (l.remover.toks ++ l.loader.toks) l.maker.toks)
  · simpa [Maker.toks] using (List.sublist_append_left l.loader.pend l.maker.toks)

theorem ok_rot {l l' : Lane} (h : Ok l) {d : Disk} {made : List Tok} {c0 : Bytes} {todo : List Bytes} (hm : l.maker = .making made (c0 :: todo))
    {v : Nat → Nat → Nat} {res : Option (Tok × Bytes)} (he : l.createFile d made.length v = some (l', res)) (f : Bool) :
    Ok { l' with maker := .ended, failed := f } := by
  obtain ⟨r, r', hr, hring, _⟩ := createFile_spec h he
  obtain ⟨hL, hR, hM⟩ := rot_holds h hm hr
  have hs := hr.same
  generalize hrs : l'.rings = rs at hs
  subst hs
  have hR' : List.Sublist (l.remover.toks ++ l.loader.toks ++ Maker.toks .ended) (l.remover.toks ++ l.loader.toks ++ l.maker.toks) := by
    simpa [Maker.toks] using (List.sublist_append_left (l.remover.toks ++ l.loader.toks) l.maker.toks)
  have hL' : List.Sublist (l.loader.pend ++ Maker.toks .ended) (l.loader.pend ++ l.maker.toks) := by
    simpa [Maker.toks] using (List.sublist_append_left l.loader.pend l.maker.toks)
  refine {
    rings := hr.len.trans h.rings
    ring := hring
    making := by intro _ _ h; cases h
    sending := by intro _ h; cases h
    atM := by intro t ht; cases ht
    atL := ?_
    atR := ?_
    named := ?_
    idsR := h.idsR.sublist ((List.Sublist.refl _).append (hR'.map _))
    ltR := fun i hi => h.ltR i (((List.Sublist.refl _).append (hR'.map _)).subset hi)
    idsL := h.idsL.sublist ((List.Sublist.refl _).append (hL'.map _))
    ltL := fun i hi => h.ltL i (((List.Sublist.refl _).append (hL'.map _)).subset hi)
    loaded := h.loaded
    removed := h.removed
    made := h.made }
  · intro t ht
    refine at_mono (n := if t.ring < made.length + 1 then 1 else 0) (hL t ht).1 ?_
    simp only [Maker.holds]; split <;> simp
  · intro t ht
    refine at_mono (n := (if t.ring < made.length + 1 then 1 else 0) + l.loader.busy) (hR t ht).1 ?_
    simp only [Maker.holds]; split <;> simp
  · intro q hq
    have hv : ∀ q, Lane.view { l with rings := rs, maker := .ended, failed := f } q = Lane.view { l with rings := rs } q := fun _ => rfl
    simp only [Maker.toks, List.append_nil] at hq
    rcases List.mem_append.mp hq with hq | hq
    · obtain ⟨c, hc⟩ := h.named q (by simp [hq])
      exact ⟨c, by rw [hv, (hR q hq).2]; exact hc⟩
    · obtain ⟨c, hc⟩ := h.named q (by simp [hq])
      exact ⟨c, by rw [hv, (hL q hq).2]; exact hc⟩

/-- Each name held is that of a file that is left. -/
theorem held_left {l : Lane} (h : Ok l) {t : Tok} (ht : t ∈ l.remover.toks ++ l.loader.toks ++ l.maker.toks) :
    t.id ∉ l.removed.map Prod.fst ∧ ∃ c, l.created[t.id]? = some (l.view t, c) ∧ (l.view t, c) ∈ l.left := by
  have h1 : t.id ∉ l.removed.map Prod.fst := by
    intro hm
    have := (List.pairwise_append.mp h.idsR).2.2 _ hm t.id (List.mem_map.mpr ⟨t, ht, rfl⟩)
    omega
  obtain ⟨c, hc⟩ := h.named t ht
  exact ⟨h1, c, hc, mem_left hc h1⟩

theorem created_effect {l l' : Lane} (h : Ok l) {d : Disk} {made : List Tok} {c0 : Bytes} {todo : List Bytes} (hm : l.maker = .making made (c0 :: todo))
    {v : Nat → Nat → Nat} {t : Tok} {p : Bytes} (he : l.createFile d made.length v = some (l', some (t, p))) (mk : Maker) (f : Bool) (c : Bytes) :
    Effect l { l' with maker := mk, failed := f, created := l'.created ++ [(p, c)] } d (Disk.append ((p, []) :: d) (l'.view t) c) := by
  obtain ⟨r, r', hr, hring, hres⟩ := createFile_spec h he
  obtain ⟨_, _, _, hview, hex, _⟩ := hres t p rfl
  refine .create p c hex ?_ ?_
  · rw [hview]; exact append_fresh hex
  · have hs := hr.same
    generalize hrs : l'.rings = rs at hs
    subst hs
    exact left_create (fun i hi => h.ltR i (by simp at hi ⊢; exact .inl hi))

theorem rot_left {l l' : Lane} (h : Ok l) {d : Disk} {j : Nat}
    {v : Nat → Nat → Nat} {res : Option (Tok × Bytes)} (he : l.createFile d j v = some (l', res)) (mk : Maker) (f : Bool) :
    Lane.left { l' with maker := mk, failed := f } = l.left := by
  obtain ⟨r, r', hr, hring, hres⟩ := createFile_spec h he
  have hs := hr.same
  generalize hrs : l'.rings = rs at hs
  subst hs
  rfl

/-- Every step keeps the invariant, and changes the file system by at most one file. -/
theorem step_ok {l l' : Lane} {d d' : Disk} {a : Act} (h : Ok l) (hd : ∀ e ∈ l.left, d.read e.1 = some e.2) (he : l.exec d a = some (l', d')) :
    Ok l' ∧ Effect l l' d d' := by
  cases a with
  | take =>
    simp only [Lane.exec] at he
    split at he
    case h_2 => cases he
    rename_i b rest hm hi
    split at he
    case isFalse => cases he
    rename_i hb
    cases he
    have hh : ∀ i, Maker.holds (.making [] b) i = l.maker.holds i := by intro i; simp [Maker.holds, hm, Maker.toks]
    refine ⟨?_, .none rfl rfl⟩
    refine ok_move h (.making [] b) l.loader l.remover rest l.given l.failed ?_ (by intro _ h; cases h) (by intro t ht; cases ht) ?_ ?_ ?_ ?_
    · intro made todo hm
      cases hm
      simp [hb]
    · intro t ht; rw [hh]; exact h.atL t ht
    · intro t ht; rw [hh]; exact h.atR t ht
    · rw [hm]; exact List.Sublist.refl _
    · rw [hm]; exact List.Sublist.refl _
  | make v =>
    simp only [Lane.exec] at he
    split at he
    case h_2 => cases he
    rename_i made c0 todo hm
    split at he
    · rename_i l1 t p hc
      cases he
      exact ⟨ok_created h hm hc, created_effect h hm hc _ _ _⟩
    · rename_i l1 hc
      cases he
      exact ⟨ok_rot h hm hc true, .none rfl (rot_left h hc .ended true)⟩
    · cases he
  | makeFail v left =>
    simp only [Lane.exec] at he
    split at he
    case h_2 => cases he
    rename_i made c0 todo hm
    split at he
    · rename_i l1 t p n hc
      cases he
      refine ⟨?_, created_effect h hm hc _ _ _⟩
      -- the file has other content, and the maker has ended
      have h1 := ok_endMaker (ok_created h hm hc) true
      refine { rings := h1.rings, ring := h1.ring, making := h1.making, sending := h1.sending, atM := h1.atM, atL := h1.atL, atR := h1.atR,
               named := ?_, idsR := h1.idsR, ltR := ?_, idsL := h1.idsL, ltL := ?_, loaded := ?_, removed := ?_, made := ?_ }
      · intro q hq
        obtain ⟨r, r', hr, hring, hres⟩ := createFile_spec h hc
        obtain ⟨hL, hR, hM⟩ := rot_holds h hm hr
        have hs := hr.same
        generalize hrs : l1.rings = rs at hs
        subst hs
        have hv : ∀ q, Lane.view { l with rings := rs, maker := .ended, failed := true, created := l.created ++ [(p, c0.take n)] } q =
          Lane.view { l with rings := rs } q := fun _ => rfl
        simp only [Maker.toks, List.append_nil] at hq
        rcases List.mem_append.mp hq with hq | hq
        · obtain ⟨c, hc⟩ := h.named q (by simp [hq])
          exact ⟨c, by rw [hv, (hR q hq).2]; exact getElem?_append_left' hc⟩
        · obtain ⟨c, hc⟩ := h.named q (by simp [hq])
          exact ⟨c, by rw [hv, (hL q hq).2]; exact getElem?_append_left' hc⟩
      · intro i hi
        have := h1.ltR i hi
        simpa using this
      · intro i hi
        have := h1.ltL i hi
        simpa using this
      · intro e he
        have hs := (createFile_spec h hc).choose_spec.choose_spec.1.same
        generalize hrs : l1.rings = rs at hs
        subst hs
        obtain ⟨n, hn⟩ := h.loaded e he
        exact ⟨n, getElem?_append_left' hn⟩
      · intro e he
        have hs := (createFile_spec h hc).choose_spec.choose_spec.1.same
        generalize hrs : l1.rings = rs at hs
        subst hs
        obtain ⟨n, hn⟩ := h.removed e he
        exact ⟨n, getElem?_append_left' hn⟩
      · intro e he
        have h2 := h1.made
        simp only at he h2
        rcases List.mem_append.mp he with he | he
        · exact h2 e (List.mem_append_left _ he)
        · simp at he; subst he
          exact h2 (p, c0) (by simp)
    · rename_i hc _
      cases he
      exact ⟨ok_rot h hm hc true, .none rfl (rot_left h hc .ended true)⟩
    · cases he
  | give =>
    simp only [Lane.exec] at he
    split at he
    case h_2 => cases he
    rename_i ts hm hl
    cases he
    refine ⟨?_, .none rfl rfl⟩
    have hto : l.maker.toks = ts := by rw [hm]; rfl
    have hlo : l.loader.toks = [] := by rw [hl]; rfl
    refine ok_move h .idle (afterLoad [] ts) l.remover l.input l.given l.failed (by intro _ _ h; cases h) (by intro _ h; cases h)
      (by intro t ht; cases ht) ?_ ?_ ?_ ?_
    · intro t ht
      rw [afterLoad_toks] at ht
      exact at_mono (h.atM t (by rw [hto]; exact ht)) (Nat.zero_le _)
    · intro t ht
      refine at_mono (h.atR t ht) ?_
      have := holds_le l.maker t.ring
      have hb : l.loader.busy = 0 := by rw [hl]; rfl
      rw [afterLoad_busy, hb]
      omega
    · rw [afterLoad_toks, hto, hlo]; simp [Maker.toks]
    · rw [afterLoad_pend, hto]; simp [Maker.toks, hl, Loader.pend]
  | load fails =>
    simp only [Lane.exec] at he
    split at he
    case h_2 => cases he
    rename_i done t todo hl
    split at he
    · rename_i c hr
      cases he
      refine ⟨?_, .none rfl rfl⟩
      have hlt : l.loader.toks = (done ++ [t]) ++ todo := by rw [hl]; simp [Loader.toks]
      have hlp : l.loader.pend = t :: todo := by rw [hl]; rfl
      have h1 := ok_move h l.maker (.loading (done ++ [t]) todo) l.remover l.input l.given l.failed h.making h.sending h.atM
        (by intro q hq; exact h.atL q (by rw [hlt]; exact hq))
        (by intro q hq; have := h.atR q hq; rwa [hl] at this)
        (by rw [hlt]; exact List.Sublist.refl _)
        (by rw [hlp]; exact (List.sublist_cons_self ..))
      have ht : t ∈ l.remover.toks ++ l.loader.toks ++ l.maker.toks := by rw [hlt]; simp
      obtain ⟨hni, c', hc', hcl⟩ := held_left h ht
      have hcc : c' = c := by
        have := hd _ hcl
        rw [hr] at this; cases this; rfl
      subst hcc
      refine { rings := h1.rings, ring := h1.ring, making := h1.making, sending := h1.sending, atM := h1.atM, atL := ?_, atR := ?_,
               named := ?_, idsR := ?_, ltR := ?_, idsL := ?_, ltL := ?_, loaded := ?_, removed := h1.removed, made := h1.made }
      · intro q hq
        rw [afterLoad_toks] at hq
        exact h1.atL q hq
      · intro q hq
        have := h1.atR q hq
        simp only [afterLoad_busy]
        exact this
      · intro q hq
        simp only [afterLoad_toks] at hq
        exact h1.named q hq
      · simp only [afterLoad_toks]; exact h1.idsR
      · simp only [afterLoad_toks]; exact h1.ltR
      · have := h.idsL
        rw [hlp] at this
        simp only [afterLoad_pend]
        simpa using this
      · intro i hi
        refine h.ltL i ?_
        rw [hlp]
        simp only [afterLoad_pend] at hi
        simpa using hi
      · intro e he
        rcases List.mem_append.mp he with he | he
        · exact h.loaded e he
        · simp at he; subst he
          exact ⟨_, hc'⟩
    · cases he
      refine ⟨?_, .none rfl rfl⟩
      refine ok_move h l.maker .ended l.remover l.input l.given true h.making h.sending h.atM (by intro t ht; cases ht) ?_ ?_ ?_
      · intro q hq
        exact at_mono (h.atR q hq) (Nat.add_le_add_left (busy_le l.loader) _)
      · show List.Sublist (l.remover.toks ++ [] ++ l.maker.toks) _
        rw [List.append_nil, List.append_assoc]
        exact (List.Sublist.refl _).append (List.sublist_append_right _ _)
      · exact List.sublist_append_right _ _
  | pass =>
    simp only [Lane.exec] at he
    split at he
    case h_2 => cases he
    rename_i ts hl hr
    cases he
    refine ⟨?_, .none rfl rfl⟩
    have hlt : l.loader.toks = ts := by rw [hl]; rfl
    have hrt : l.remover.toks = [] := by rw [hr]; rfl
    refine ok_move h l.maker .idle (afterRemove ts false) l.input l.given l.failed h.making h.sending h.atM (by intro t ht; cases ht) ?_ ?_ ?_
    · intro t ht
      rw [afterRemove_toks] at ht
      exact at_mono (h.atL t (by rw [hlt]; exact ht)) (Nat.le_add_right _ _)
    · rw [afterRemove_toks, hlt, hrt]; simp [Loader.toks]
    · exact List.sublist_append_right _ _
  | rm fails =>
    simp only [Lane.exec] at he
    split at he
    case h_2 => cases he
    rename_i t todo bad hr
    have hrt : l.remover.toks = t :: todo := by rw [hr]; rfl
    have hsub : List.Sublist (todo ++ l.loader.toks ++ l.maker.toks) (l.remover.toks ++ l.loader.toks ++ l.maker.toks) := by
      rw [hrt]; exact List.sublist_cons_self ..
    split at he
    · cases he
      have ht : t ∈ l.remover.toks ++ l.loader.toks ++ l.maker.toks := by rw [hrt]; simp
      obtain ⟨hni, c', hc', hcl⟩ := held_left h ht
      have h1 := ok_move h l.maker l.loader (afterRemove todo bad) l.input l.given l.failed h.making h.sending h.atM h.atL
        (by intro q hq; rw [afterRemove_toks] at hq; exact h.atR q (by rw [hrt]; exact List.mem_cons_of_mem _ hq))
        (by rw [afterRemove_toks]; exact hsub) (List.Sublist.refl _)
      refine ⟨⟨h1.rings, h1.ring, h1.making, h1.sending, h1.atM, h1.atL, h1.atR, h1.named, ?_, ?_, h1.idsL, h1.ltL, h1.loaded, ?_, h1.made⟩, ?_⟩
      · have := h.idsR
        rw [hrt] at this
        simp only [afterRemove_toks]
        simpa using this
      · intro i hi
        refine h.ltR i ?_
        rw [hrt]
        simp only [afterRemove_toks] at hi
        simpa using hi
      · intro e he
        rcases List.mem_append.mp he with he | he
        · exact h.removed e he
        · simp at he; subst he
          exact ⟨_, hc'⟩
      · refine .remove (l.view t) c' hcl rfl ?_
        have := left_remove hc' hni
        simpa [Lane.left] using this
    · cases he
      refine ⟨?_, .none rfl rfl⟩
      exact ok_move h l.maker l.loader (afterRemove todo true) l.input l.given true h.making h.sending h.atM h.atL
        (by intro q hq; rw [afterRemove_toks] at hq; exact h.atR q (by rw [hrt]; exact List.mem_cons_of_mem _ hq))
        (by rw [afterRemove_toks]; exact hsub) (List.Sublist.refl _)
  | endMaker =>
    simp only [Lane.exec] at he
    split at he
    · split at he
      · cases he; exact ⟨ok_endMaker h l.failed, .none rfl rfl⟩
      · cases he
    · split at he
      · cases he; exact ⟨ok_endMaker h l.failed, .none rfl rfl⟩
      · cases he
    · cases he
  | endLoader =>
    have key : Ok { l with loader := .ended } := by
      refine ok_move h l.maker .ended l.remover l.input l.given l.failed h.making h.sending h.atM (by intro t ht; cases ht) ?_ ?_ ?_
      · intro q hq
        exact at_mono (h.atR q hq) (Nat.add_le_add_left (busy_le l.loader) _)
      · show List.Sublist (l.remover.toks ++ [] ++ l.maker.toks) _
        rw [List.append_nil, List.append_assoc]
        exact (List.Sublist.refl _).append (List.sublist_append_right _ _)
      · exact List.sublist_append_right _ _
    simp only [Lane.exec] at he
    split at he
    · split at he
      · cases he; exact ⟨key, .none rfl rfl⟩
      · cases he
    · split at he
      · cases he; exact ⟨key, .none rfl rfl⟩
      · cases he
    · cases he
  | endRemover =>
    simp only [Lane.exec] at he
    split at he
    · split at he
      · cases he
        refine ⟨?_, .none rfl rfl⟩
        refine ok_move h l.maker l.loader .ended l.input l.given l.failed h.making h.sending h.atM h.atL (by intro t ht; cases ht) ?_ (List.Sublist.refl _)
        show List.Sublist ([] ++ l.loader.toks ++ l.maker.toks) _
        rw [List.nil_append, List.append_assoc]
        exact List.sublist_append_right _ _
      · cases he
    · cases he
  | resume input =>
    simp only [Lane.exec] at he
    split at he
    · cases he
      refine ⟨?_, .none rfl rfl⟩
      refine ok_move h .idle .idle .idle input (l.given ++ input) l.failed (by intro _ _ h; cases h) (by intro _ h; cases h)
        (by intro t ht; cases ht) (by intro t ht; cases ht) (by intro t ht; cases ht) (List.nil_sublist _) (List.nil_sublist _)
    · cases he

theorem createFile_same {l l' : Lane} (h : Ok l) {d : Disk} {j : Nat} {v : Nat → Nat → Nat} {res : Option (Tok × Bytes)}
    (he : l.createFile d j v = some (l', res)) : l' = { l with rings := l'.rings } := by
  obtain ⟨_, _, hr, _⟩ := createFile_spec h he
  exact hr.same

theorem step_clean {l l' : Lane} {d d' : Disk} {a : Act} (h : Ok l) (hc : l.failed = false → Clean l) (he : l.exec d a = some (l', d')) :
    l'.failed = false → Clean l' := by
  cases a with
  | take =>
    simp only [Lane.exec] at he
    split at he
    case h_2 => cases he
    rename_i b rest hm hi
    split at he
    case isFalse => cases he
    cases he
    intro hf
    obtain ⟨c1, c2, c3, c4, c5, c6, c7, c8⟩ := hc hf
    refine ⟨?_, ?_, ?_, c4, ?_, (by intro h; cases h), c7, c8⟩
    · simpa [hm, Maker.toks] using c1
    · simpa [hm, Maker.toks] using c2
    · simpa [hm, hi, Maker.todo] using c3
    · intro h; have := c5 h; rw [hm] at this; cases this
  | make v =>
    simp only [Lane.exec] at he
    split at he
    case h_2 => cases he
    rename_i made c0 todo hm
    split at he
    · rename_i l1 t p hcr
      cases he
      have hs := createFile_same h hcr
      obtain ⟨r, r', hr, hring, hres⟩ := createFile_spec h hcr
      have hid := (hres t p rfl).1
      clear hres hring hr hcr
      generalize hrs : l1.rings = rs at hs
      subst hs
      intro hf
      obtain ⟨c1, c2, c3, c4, c5, c6, c7, c8⟩ := hc hf
      refine ⟨?_, ?_, ?_, c4, ?_, ?_, c7, c8⟩
      · simp only [afterMake_toks, List.length_append, List.length_cons, List.length_nil, Nat.zero_add, List.range_succ, ← c1]
        simp [hm, Maker.toks, hid]
      · simp only [afterMake_toks, List.length_append, List.length_cons, List.length_nil, Nat.zero_add, List.range_succ, ← c2]
        simp [hm, Maker.toks, hid]
      · simp only [afterMake_todo]
        simpa [hm, Maker.todo] using c3
      · intro h; have := c5 h; rw [hm] at this; cases this
      · intro h; exfalso; revert h; simp only [afterMake]; split <;> simp
    · cases he
      intro hf; cases hf
    · cases he
  | makeFail v left =>
    simp only [Lane.exec] at he
    split at he
    case h_2 => cases he
    split at he
    · cases he; intro hf; cases hf
    · cases he; intro hf; cases hf
    · cases he
  | give =>
    simp only [Lane.exec] at he
    split at he
    case h_2 => cases he
    rename_i ts hm hl
    cases he
    intro hf
    obtain ⟨c1, c2, c3, c4, c5, c6, c7, c8⟩ := hc hf
    refine ⟨?_, ?_, ?_, ?_, ?_, (by intro h; cases h), c7, ?_, c8.2⟩
    · simp only [afterLoad_toks, ← c1]; simp [hm, hl, Maker.toks, Loader.toks]
    · simp only [afterLoad_pend, ← c2]; simp [hm, hl, Maker.toks, Loader.pend]
    · simpa [hm, Maker.todo] using c3
    · intro h; have := c4 h; rw [hl] at this; cases this
    · intro h; exfalso; revert h; simp only [afterLoad]; split <;> simp
    · have := congrArg List.length (h.sending _ hm)
      simp only [List.length_map, List.length_range] at this
      simp [afterLoad_toks, this]
  | load fails =>
    simp only [Lane.exec] at he
    split at he
    case h_2 => cases he
    rename_i done t todo hl
    split at he
    · rename_i c hr
      cases he
      intro hf
      obtain ⟨c1, c2, c3, c4, c5, c6, c7, c8⟩ := hc hf
      refine ⟨?_, ?_, c3, ?_, ?_, c6, c7, ?_, c8.2⟩
      · simp only [afterLoad_toks, ← c1]; simp [hl, Loader.toks]
      · simp only [afterLoad_pend, ← c2]; simp [hl, Loader.pend]
      · intro h; have := c4 h; rw [hl] at this; cases this
      · intro h; exfalso; revert h; simp only [afterLoad]; split <;> simp
      · have := c8.1
        simp only [hl, Loader.toks, List.length_append, List.length_cons] at this
        simp only [afterLoad_toks, List.length_append, List.length_cons, List.length_nil]; omega
    · cases he; intro hf; cases hf
  | pass =>
    simp only [Lane.exec] at he
    split at he
    case h_2 => cases he
    rename_i ts hl hr
    cases he
    intro hf
    obtain ⟨c1, c2, c3, c4, c5, c6, c7, c8⟩ := hc hf
    refine ⟨?_, ?_, c3, ?_, (by intro h; cases h), c6, ?_, (Nat.zero_le _ : (0:Nat) ≤ _), ?_⟩
    · simp only [afterRemove_toks, ← c1]; simp [hl, hr, Loader.toks, Remover.toks]
    · simpa [hl, Loader.pend] using c2
    · intro h; exfalso; revert h; simp only [afterRemove]; split <;> simp
    · intro todo bad h
      simp only [afterRemove] at h
      split at h
      · split at h <;> cases h
      · cases h; rfl
    · have := c8.1; simpa [hl, Loader.toks, afterRemove_toks] using this
  | rm fails =>
    simp only [Lane.exec] at he
    split at he
    case h_2 => cases he
    rename_i t todo bad hr
    split at he
    · cases he
      intro hf
      obtain ⟨c1, c2, c3, c4, c5, c6, c7, c8⟩ := hc hf
      have hb := c7 _ _ hr
      subst hb
      refine ⟨?_, c2, c3, ?_, c5, c6, ?_, c8.1, ?_⟩
      · simp only [afterRemove_toks, ← c1]; simp [hr, Remover.toks]
      · intro h; exfalso; revert h; simp only [afterRemove]; split <;> simp
      · intro todo' bad' h
        simp only [afterRemove] at h
        split at h
        · split at h <;> cases h
        · cases h; rfl
      · have := c8.2
        simp only [hr, Remover.toks, List.length_cons] at this
        simp only [afterRemove_toks]; omega
    · cases he; intro hf; cases hf
  | endMaker =>
    simp only [Lane.exec] at he
    split at he
    · rename_i hm
      split at he
      · rename_i hcond
        cases he
        intro hf
        obtain ⟨c1, c2, c3, c4, c5, c6, c7, c8⟩ := hc hf
        have hi : l.input = [] := by
          simp only [Bool.or_eq_true, List.isEmpty_iff, beq_iff_eq] at hcond
          rcases hcond with h | h
          · exact h
          · have := c5 h; rw [hm] at this; cases this
        refine ⟨?_, ?_, ?_, c4, fun _ => rfl, fun _ => hi, c7, c8⟩
        · simpa [hm, Maker.toks] using c1
        · simpa [hm, Maker.toks] using c2
        · simpa [hm, Maker.todo] using c3
      · cases he
    · rename_i hm
      split at he
      · rename_i hcond
        cases he
        intro hf
        have := (hc hf).endL (by simpa using hcond)
        rw [hm] at this; cases this
      · cases he
    · cases he
  | endLoader =>
    simp only [Lane.exec] at he
    split at he
    · rename_i hl
      split at he
      · rename_i hcond
        cases he
        intro hf
        obtain ⟨c1, c2, c3, c4, c5, c6, c7, c8⟩ := hc hf
        have hi : l.maker = .ended := by
          simp only [Bool.or_eq_true, beq_iff_eq] at hcond
          rcases hcond with h | h
          · exact h
          · have := c4 h; rw [hl] at this; cases this
        refine ⟨?_, ?_, c3, fun _ => rfl, fun _ => hi, c6, c7, Nat.zero_le _, c8.2⟩
        · simpa [hl, Loader.toks] using c1
        · simpa [hl, Loader.pend] using c2
      · cases he
    · rename_i hl
      split at he
      · rename_i hcond
        cases he
        intro hf
        have := (hc hf).endR (by simpa using hcond)
        rw [hl] at this; cases this
      · cases he
    · cases he
  | endRemover =>
    simp only [Lane.exec] at he
    split at he
    · rename_i hr
      split at he
      · rename_i hcond
        cases he
        intro hf
        obtain ⟨c1, c2, c3, c4, c5, c6, c7, c8⟩ := hc hf
        refine ⟨?_, c2, c3, fun _ => by simpa using hcond, c5, c6, (by intro _ _ h; cases h), c8.1, Nat.zero_le _⟩
        simpa [hr, Remover.toks] using c1
      · cases he
    · cases he
  | resume input =>
    simp only [Lane.exec] at he
    split at he
    · rename_i hcond
      cases he
      intro hf
      obtain ⟨c1, c2, c3, c4, c5, c6, c7, c8⟩ := hc hf
      simp only [Bool.and_eq_true, beq_iff_eq] at hcond
      obtain ⟨⟨hm, hl⟩, hr⟩ := hcond
      refine ⟨?_, ?_, ?_, (by intro h; cases h), (by intro h; cases h), (by intro h; cases h), (by intro _ _ h; cases h), Nat.zero_le _, Nat.zero_le _⟩
      · simpa [hm, hl, hr, Maker.toks, Loader.toks, Remover.toks] using c1
      · simpa [hm, hl, hr, Maker.toks, Loader.pend, Remover.toks] using c2
      · simp only [Maker.todo, List.append_nil, List.flatten_append, ← c3]
        simp [hm, Maker.todo, c6 hm]
    · cases he

/-! ## All lanes -/

structure Inv (s : Sys) : Prop where
  ok : ∀ l ∈ s.lanes, Ok l
  clean : ∀ l ∈ s.lanes, l.failed = false → Clean l
  keys : (s.disk.map Prod.fst).Nodup
  files : s.disk.Perm (s.others ++ s.lanes.flatMap Lane.left)

theorem Inv.reads {s : Sys} (h : Inv s) {l : Lane} (hl : l ∈ s.lanes) : ∀ e ∈ l.left, s.disk.read e.1 = some e.2 := by
  intro e he
  refine read_of_mem h.keys (h.files.mem_iff.mpr (List.mem_append_right _ (List.mem_flatMap.mpr ⟨l, hl, he⟩)))

theorem ok_new (k : Kind) (input : List (List Bytes)) : Ok (Lane.new k input) := by
  refine ⟨by simp [Lane.new], ?_, (by intro _ _ h; cases h), (by intro _ h; cases h), (by intro t ht; cases ht), (by intro t ht; cases ht),
    (by intro t ht; cases ht), (by intro t ht; cases ht), List.Pairwise.nil, (by intro t ht; cases ht), List.Pairwise.nil, (by intro t ht; cases ht),
    (by intro t ht; cases ht), (by intro t ht; cases ht), (by intro t ht; cases ht)⟩
  intro r hr
  simp only [Lane.new, List.mem_map] at hr
  obtain ⟨_, _, rfl⟩ := hr
  refine ⟨by decide, by simp [Ring.new, filepathCacheSize], ?_⟩
  intro s hs
  simp only [Ring.new] at hs
  rw [(List.mem_replicate.mp hs).2]
  exact List.length_replicate

theorem clean_new (k : Kind) (input : List (List Bytes)) : Clean (Lane.new k input) where
  idsR := rfl
  idsL := rfl
  texts := by simp [Lane.new, Maker.todo]
  endR := by intro h; cases h
  endL := by intro h; cases h
  endM := by intro h; cases h
  good := by intro _ _ h; cases h
  size := ⟨Nat.zero_le _, Nat.zero_le _⟩

theorem inv_init (files : Disk) (hf : (files.map Prod.fst).Nodup) (lanes : List (Kind × List (List Bytes))) : Inv (Sys.init files lanes) where
  ok := by
    intro l hl
    simp only [Sys.init, List.mem_map] at hl
    obtain ⟨p, _, rfl⟩ := hl
    exact ok_new _ _
  clean := by
    intro l hl _
    simp only [Sys.init, List.mem_map] at hl
    obtain ⟨p, _, rfl⟩ := hl
    exact clean_new _ _
  keys := hf
  files := by
    have : (Sys.init files lanes).lanes.flatMap Lane.left = [] := by
      simp only [List.flatMap_eq_nil_iff]
      intro l hl
      simp only [Sys.init, List.mem_map] at hl
      obtain ⟨p, _, rfl⟩ := hl
      rfl
    rw [this]; simp [Sys.init]

theorem inv_step {s s' : Sys} {e : Ev} (h : Inv s) (he : s.exec e = some s') : Inv s' := by
  cases e with
  | other p c =>
    simp only [Sys.exec] at he
    split at he
    · cases he
    · rename_i hx
      cases he
      refine ⟨h.ok, h.clean, ?_, ?_⟩
      · simp only [List.map_cons, List.nodup_cons]
        exact ⟨not_exists_iff.mp (by simpa using hx), h.keys⟩
      · exact h.files.cons _
  | lane i a =>
    simp only [Sys.exec] at he
    split at he
    case h_2 => cases he
    rename_i l hl
    cases hr : l.exec s.disk a with
    | none => rw [hr] at he; cases he
    | some r =>
      rw [hr] at he
      simp only [Option.map_some, Option.some.injEq] at he
      subst he
      obtain ⟨l', d'⟩ := r
      have hlm := List.mem_of_getElem? hl
      obtain ⟨hok, heff⟩ := step_ok (h.ok l hlm) (h.reads hlm) hr
      have hcl := step_clean (h.ok l hlm) (h.clean l hlm) hr
      refine ⟨?_, ?_, ?_, ?_⟩
      · intro q hq
        rcases List.mem_or_eq_of_mem_set hq with hq | hq
        · exact h.ok q hq
        · rw [hq]; exact hok
      · intro q hq
        rcases List.mem_or_eq_of_mem_set hq with hq | hq
        · exact h.clean q hq
        · rw [hq]; exact hcl
      · cases heff with
        | none hd hl' => rw [hd]; exact h.keys
        | create p c hp hd hl' =>
          rw [hd]
          simp only [List.map_cons, List.nodup_cons]
          exact ⟨not_exists_iff.mp hp, h.keys⟩
        | remove p c hm hd hl' =>
          rw [hd]
          exact h.keys.sublist ((List.eraseP_sublist ..).map _)
      · have hset := flatMap_set_perm (f := Lane.left) (b := l') hl
        cases heff with
        | none hd hl' =>
          rw [hd]
          refine h.files.trans (List.Perm.append_left _ ?_)
          rw [hl'] at hset
          exact ((List.perm_append_left_iff _).mp hset).symm
        | create p c hp hd hl' =>
          rw [hd]
          refine (h.files.cons (p, c)).trans ?_
          rw [hl'] at hset
          have h1 : ((p, c) :: s.lanes.flatMap Lane.left).Perm ((s.lanes.set i l').flatMap Lane.left) := by
            rw [List.append_assoc] at hset
            exact ((List.perm_append_left_iff _).mp hset).symm
          exact (List.perm_middle.symm).trans (h1.append_left _)
        | remove p c hm hd hl' =>
          rw [hd]
          have h0 : (p, c) ∈ s.disk := h.files.mem_iff.mpr (List.mem_append_right _ (List.mem_flatMap.mpr ⟨l, hlm, hm⟩))
          have h1 := (remove_perm h.keys h0).symm.trans h.files
          have h2 : ((p, c) :: (s.lanes.set i l').flatMap Lane.left).Perm (s.lanes.flatMap Lane.left) := by
            have h3 := (hl'.symm.append_right ((s.lanes.set i l').flatMap Lane.left)).trans hset
            have h4 : ((p, c) :: l'.left ++ (s.lanes.set i l').flatMap Lane.left).Perm (l'.left ++ ((p, c) :: (s.lanes.set i l').flatMap Lane.left)) :=
              List.perm_middle.symm
            exact (List.perm_append_left_iff _).mp (h4.symm.trans h3)
          have h5 := h1.trans ((h2.symm.append_left s.others).trans List.perm_middle)
          exact (List.perm_cons _).mp h5

theorem inv_run {s s' : Sys} {es : List Ev} (h : Inv s) (he : s.run es = some s') : Inv s' := by
  induction es generalizing s with
  | nil => cases he; exact h
  | cons e es ih =>
    simp only [Sys.run, Option.bind_eq_some_iff] at he
    obtain ⟨s1, h1, h2⟩ := he
    exact ih (inv_step h h1) h2

end Fpki.TempFile
