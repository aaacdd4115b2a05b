import Verif.Model.Chains
import Mathlib.Data.List.Perm.Basic

/-!
# C19: unfolding chains; C35: every certificate of every chain is emitted by the ingest worker
-/
namespace Fpki.Chains
open Fpki.Batch (lruContains lruAdd)

/-! ## C19 -/

/-- A certificate in the result: the certificate, its ID, the ID of its parent, its names. -/
abbrev Row := X509 × Bytes × Option Bytes × Option (List Bytes)

/-- What has to be stored for a path (a certificate followed by its issuers): every certificate once, with the ID of the
following one as its parent; names only for the first one. -/
def pathRows (H : Bytes → Bytes) (names : Option (List Bytes)) : X509 → List X509 → List Row
  | c, [] => [(c, H c.raw, none, names)]
  | c, d :: ds => (c, H c.raw, some (H d.raw), names) :: pathRows H none d ds

/-- The result slices of rows. -/
def ofRows (rows : List Row) : Unfolded :=
  ⟨rows.map (·.1), rows.map (·.2.1), rows.map (·.2.2.1), rows.map (·.2.2.2)⟩

/-- The row for the certificate itself. -/
def firstRow (H : Bytes → Bytes) (leaf : Bool) (p : X509 × List X509) : Row :=
  (p.1, H p.1.raw, p.2.head?.map (fun c => H c.raw), if leaf then some p.1.names else none)

theorem foldl_add (H : Bytes → Bytes) (leaf : Bool) : ∀ (ps : List (X509 × List X509)) (rows : List Row),
    ps.foldl (Unfolded.add H leaf) (ofRows rows) = ofRows (rows ++ ps.map (firstRow H leaf))
  | [], rows => by simp
  | p :: ps, rows => by
    have h1 : Unfolded.add H leaf (ofRows rows) p = ofRows (rows ++ [firstRow H leaf p]) := by
      simp [Unfolded.add, ofRows, firstRow]
    rw [List.foldl_cons, h1, foldl_add H leaf ps]
    simp

/-- The rows of a list of paths. -/
def allPathRows (H : Bytes → Bytes) (leaf : Bool) (ps : List (X509 × List X509)) : List Row :=
  ps.flatMap (fun p => pathRows H (if leaf then some p.1.names else none) p.1 p.2)

theorem allPathRows_split (H : Bytes → Bytes) (leaf : Bool) : ∀ ps : List (X509 × List X509),
    (ps.map (firstRow H leaf) ++ allPathRows H false (pending ps)).Perm (allPathRows H leaf ps)
  | [] => by simp [allPathRows, pending]
  | (c, []) :: ps => by
    have ih := allPathRows_split H leaf ps
    simp only [List.map_cons, allPathRows, pending, List.filterMap_cons, List.flatMap_cons, pathRows, firstRow, List.cons_append,
      List.nil_append] at ih ⊢
    exact ih.cons _
  | (c, d :: ds) :: ps => by
    have ih := allPathRows_split H leaf ps
    simp only [List.map_cons, allPathRows, pending, List.filterMap_cons, List.flatMap_cons, pathRows, firstRow, List.cons_append] at ih ⊢
    refine List.Perm.cons _ ?_
    refine (List.perm_append_comm_assoc _ _ _).trans ?_
    exact ih.append_left _

theorem unfoldLoop_rows (H : Bytes → Bytes) (n : Nat) : ∀ (leaf : Bool) (rows : List Row) (ps : List (X509 × List X509)),
    (ps.map (fun p => p.2.length + 1)).sum ≤ n →
    ∃ rest, unfoldLoop H leaf (ofRows rows) ps = ofRows (rows ++ ps.map (firstRow H leaf) ++ rest) ∧ rest.Perm (allPathRows H false (pending ps)) ∧
      ∀ r ∈ rest, r.2.2.2 = none := by
  induction n with
  | zero =>
    intro leaf rows ps h
    have : ps = [] := by
      cases ps with
      | nil => rfl
      | cons p ps => simp at h
    subst this
    rw [unfoldLoop]
    exact ⟨[], by simp, by simp [pending, allPathRows], by simp⟩
  | succ n ih =>
    intro leaf rows ps h
    rw [unfoldLoop]
    by_cases hp : ps = []
    · subst hp
      exact ⟨[], by simp, by simp [pending, allPathRows], by simp⟩
    · rw [if_neg hp, foldl_add]
      have hm := pending_measure ps
      have hl := List.length_pos_iff.2 hp
      obtain ⟨rest, h1, h2, h3⟩ := ih false (rows ++ ps.map (firstRow H leaf)) (pending ps) (by omega)
      refine ⟨(pending ps).map (firstRow H false) ++ rest, ?_, ?_, ?_⟩
      · rw [h1]; simp only [List.append_assoc]
      · exact (h2.append_left _).trans (allPathRows_split H false (pending ps))
      · intro r hr
        rcases List.mem_append.1 hr with hr | hr
        · obtain ⟨p, _, rfl⟩ := List.mem_map.1 hr
          rfl
        · exact h3 r hr

/-- C19: `UnfoldCerts` emits, up to the order, exactly the rows of all paths (leaf, chain...): the four result slices are those of one list
of rows, which starts with the leaves in their order; only these have names. -/
theorem C19_unfold_complete (H : Bytes → Bytes) (leaves : List X509) (chains : List (List X509)) (hlen : leaves.length = chains.length) :
    ∃ rows : List Row, unfoldCerts H leaves chains = ofRows rows ∧
      rows.Perm ((leaves.zip chains).flatMap (fun p => pathRows H (some p.1.names) p.1 p.2)) ∧
      (rows.take leaves.length).map (·.1) = leaves ∧
      (rows.take leaves.length).map (·.2.2.2) = leaves.map (fun c => some c.names) ∧
      ∀ r ∈ rows.drop leaves.length, r.2.2.2 = none := by
  obtain ⟨rest, h1, h2, h3⟩ := unfoldLoop_rows H _ true [] (leaves.zip chains) (Nat.le_refl _)
  rw [List.nil_append] at h1
  have hz : ((leaves.zip chains).map (firstRow H true)).length = leaves.length := by simp [hlen]
  refine ⟨(leaves.zip chains).map (firstRow H true) ++ rest, h1, ?_, ?_, ?_, ?_⟩
  · exact (h2.append_left _).trans (allPathRows_split H true _)
  · rw [List.take_left' hz, List.map_map]
    have : ((fun r : Row => r.1) ∘ firstRow H true) = Prod.fst := rfl
    rw [this, List.map_fst_zip (by omega)]
  · rw [List.take_left' hz, List.map_map]
    have : ((fun r : Row => r.2.2.2) ∘ firstRow H true) = (fun c : X509 => some c.names) ∘ Prod.fst := rfl
    rw [this, ← List.map_map, List.map_fst_zip (by omega)]
  · rw [List.drop_left' hz]
    exact h3

/-- C19: the result slices have the same length, one element for each certificate of each path. -/
theorem C19_aligned (H : Bytes → Bytes) (leaves : List X509) (chains : List (List X509)) (hlen : leaves.length = chains.length) :
    let u := unfoldCerts H leaves chains
    u.certs.length = (chains.map (fun c => c.length + 1)).sum ∧ u.ids.length = u.certs.length ∧ u.parents.length = u.certs.length ∧
      u.names.length = u.certs.length ∧ u.ids = u.certs.map (fun c => H c.raw) := by
  obtain ⟨rows, h1, h2, _⟩ := C19_unfold_complete H leaves chains hlen
  dsimp only
  rw [h1]
  have hp : ∀ (ds : List X509) (c : X509) (ns : Option (List Bytes)), (pathRows H ns c ds).length = ds.length + 1 := by
    intro ds
    induction ds with
    | nil => intro c ns; rfl
    | cons d ds ih => intro c ns; simp [pathRows, ih]
  have hid : ∀ (ds : List X509) (c : X509) (ns : Option (List Bytes)), ∀ r ∈ pathRows H ns c ds, r.2.1 = H r.1.raw := by
    intro ds
    induction ds with
    | nil => intro c ns r hr; simp [pathRows] at hr; rw [hr]
    | cons d ds ih =>
      intro c ns r hr
      simp only [pathRows, List.mem_cons] at hr
      rcases hr with rfl | hr
      · rfl
      · exact ih _ _ r hr
  refine ⟨?_, by simp [ofRows], by simp [ofRows], by simp [ofRows], ?_⟩
  · have := h2.length_eq
    simp only [ofRows, List.length_map]
    rw [this, List.length_flatMap]
    congr 1
    have hz : (leaves.zip chains).map (fun p => (pathRows H (some p.1.names) p.1 p.2).length) =
        ((leaves.zip chains).map Prod.snd).map (fun c => c.length + 1) := by
      rw [List.map_map]
      apply List.map_congr_left
      intro p _
      exact hp _ _ _
    rw [hz, List.map_snd_zip (by omega)]
  · simp only [ofRows, List.map_map]
    apply List.map_congr_left
    intro r hr
    have := h2.mem_iff.1 hr
    obtain ⟨p, _, hpr⟩ := List.mem_flatMap.1 this
    exact hid _ _ _ r hpr

/-- The comment of `UnfoldCerts` promises each certificate once: two leaves with the same issuer emit it twice. -/
theorem C19_once_violated : ∃ (leaves : List X509) (chains : List (List X509)), leaves.length = chains.length ∧
    ¬ (unfoldCerts id leaves chains).ids.Nodup :=
  ⟨[⟨[1], [], 0⟩, ⟨[2], [], 0⟩], [[⟨[9], [], 0⟩], [⟨[9], [], 0⟩]], rfl, by simp [unfoldCerts, unfoldLoop, pending, Unfolded.add]⟩

/-! ## C35 -/

/-- The IDs of a line: leaf, issuer, its issuer, ... -/
def path (H : Bytes → Bytes) (l : Line) : List Bytes := H l.leaf.raw :: l.chain.map (fun c => H c.raw)

/-- The line is not skipped because of its expiration. -/
def Accepted (now : Nat) (l : Line) : Prop := now ≤ l.exp ∧ now ≤ l.leaf.notAfter

/-- The chain after a certificate is the same wherever it occurs. -/
def Consistent (H : Bytes → Bytes) (now : Nat) (ls : List Line) : Prop :=
  ∀ l1 ∈ ls, ∀ l2 ∈ ls, Accepted now l1 → Accepted now l2 → ∀ x a1 t1 a2 t2, path H l1 = a1 ++ x :: t1 → path H l2 = a2 ++ x :: t2 → t1 = t2

theorem mem_lruAdd {size : Nat} {c : List Bytes} {id x : Bytes} (h : x ∈ lruAdd size c id) : x = id ∨ x ∈ c := by
  have := List.mem_of_mem_take h
  rcases List.mem_cons.1 this with h | h
  · exact Or.inl h
  · exact Or.inr (List.mem_of_mem_erase h)

theorem chainLoop_cache (H : Bytes → Bytes) (size : Nat) : ∀ (cs : List X509) (cache : List Bytes) (x : Bytes), x ∈ (chainLoop H size cache cs).1 →
    x ∈ cache ∨ x ∈ cs.map (fun c => H c.raw)
  | [], cache, x, h => Or.inl h
  | c :: cs, cache, x, h => by
    unfold chainLoop at h
    rw [List.map_cons, List.mem_cons]
    by_cases hc : lruContains cache (H c.raw) = true
    · rw [if_pos hc] at h
      rcases chainLoop_cache H size cs _ x h with h | h <;> tauto
    · rw [if_neg hc] at h
      rcases chainLoop_cache H size cs _ x h with h | h
      · rcases mem_lruAdd h with h | h <;> tauto
      · tauto

theorem chainLoop_emits (H : Bytes → Bytes) (size : Nat) (E : Bytes → Prop) : ∀ (cs : List X509) (cache : List Bytes),
    (cs.map (fun c => H c.raw)).Nodup →
    (∀ x ∈ cache, ∀ a t, cs.map (fun c => H c.raw) = a ++ x :: t → E x ∧ ∀ y ∈ t, E y) →
    ∀ y ∈ cs.map (fun c => H c.raw), E y ∨ ∃ o ∈ unfoldAncestors (chainLoop H size cache cs).2 (cs.map (fun c => H c.raw)), o.id = y
  | [], _, _, _, y, hy => by simp at hy
  | c :: cs, cache, hn, hc, y, hy => by
    unfold chainLoop
    rw [List.map_cons] at hy hn hc ⊢
    rw [List.nodup_cons] at hn
    by_cases hcc : lruContains cache (H c.raw) = true
    · left
      have := hc (H c.raw) (by simpa [lruContains] using hcc) [] _ rfl
      rcases List.mem_cons.1 hy with rfl | hy
      · exact this.1
      · exact this.2 y hy
    · rw [if_neg hcc]
      dsimp only
      unfold unfoldAncestors
      rcases List.mem_cons.1 hy with rfl | hy
      · exact Or.inr ⟨_, List.mem_cons_self, rfl⟩
      · have ih := chainLoop_emits H size E cs (lruAdd size cache (H c.raw)) hn.2 (by
          intro x hx a t he
          rcases mem_lruAdd hx with rfl | hx
          · exact absurd (by rw [he]; simp) hn.1
          · exact hc x hx (H c.raw :: a) t (by rw [he]; rfl)) y hy
        rcases ih with ih | ⟨o, ho, hoy⟩
        · exact Or.inl ih
        · exact Or.inr ⟨o, List.mem_cons_of_mem _ ho, hoy⟩

theorem Consistent.nodup {H : Bytes → Bytes} {now : Nat} {ls : List Line} (h : Consistent H now ls) {l : Line} (hl : l ∈ ls)
    (ha : Accepted now l) : (path H l).Nodup := by
  have key : ∀ p : List Bytes, (∀ x a1 t1 a2 t2, p = a1 ++ x :: t1 → p = a2 ++ x :: t2 → t1 = t2) → p.Nodup := by
    intro p
    induction p with
    | nil => intro _; exact List.nodup_nil
    | cons x p ih =>
      intro hp
      rw [List.nodup_cons]
      constructor
      · intro hx
        obtain ⟨a, t, rfl⟩ := List.append_of_mem hx
        have := hp x [] (a ++ x :: t) (x :: a) t rfl rfl
        have := congrArg List.length this
        simp at this
        omega
      · apply ih
        intro y a1 t1 a2 t2 h1 h2
        exact hp y (x :: a1) t1 (x :: a2) t2 (by rw [h1]; rfl) (by rw [h2]; rfl)
  exact key _ (fun x a1 t1 a2 t2 h1 h2 => h l hl l hl ha ha x a1 t1 a2 t2 h1 h2)

/-- Everything in the cache was emitted, and so was everything after it in any chain. -/
def CacheInv (H : Bytes → Bytes) (now : Nat) (ls : List Line) (E : Bytes → Prop) (cache : List Bytes) : Prop :=
  ∀ x ∈ cache, E x ∧ ∀ l ∈ ls, Accepted now l → ∀ a t, path H l = a ++ x :: t → ∀ y ∈ t, E y

theorem ingestLine_spec {H : Bytes → Bytes} {size now : Nat} {ls : List Line} (hc : Consistent H now ls) {E : Bytes → Prop} {cache : List Bytes}
    (hi : CacheInv H now ls E cache) {l : Line} (hl : l ∈ ls) :
    CacheInv H now ls (fun y => E y ∨ ∃ o ∈ (ingestLine H size now cache l).2, o.id = y) (ingestLine H size now cache l).1 ∧
      (Accepted now l → ∀ y ∈ path H l, E y ∨ ∃ o ∈ (ingestLine H size now cache l).2, o.id = y) := by
  have mono : CacheInv H now ls (fun y => E y ∨ ∃ o ∈ (ingestLine H size now cache l).2, o.id = y) cache := by
    intro x hx
    exact ⟨Or.inl (hi x hx).1, fun l' hl' ha a t he y hy => Or.inl ((hi x hx).2 l' hl' ha a t he y hy)⟩
  by_cases h1 : l.exp < now
  · have : ingestLine H size now cache l = (cache, []) := by simp [ingestLine, parseLine, h1]
    refine ⟨?_, fun ha => absurd ha.1 (by omega)⟩
    rw [this] at mono ⊢
    exact mono
  · by_cases h2 : lruContains cache (H l.leaf.raw) = true
    · have : ingestLine H size now cache l = (cache, []) := by simp [ingestLine, parseLine, h1, h2]
      rw [this] at mono ⊢
      refine ⟨mono, fun ha y hy => Or.inl ?_⟩
      have h3 := hi (H l.leaf.raw) (by simpa [lruContains] using h2)
      unfold path at hy
      rcases List.mem_cons.1 hy with rfl | hy
      · exact h3.1
      · exact h3.2 l hl ha [] _ rfl y hy
    · by_cases h3 : l.leaf.notAfter < now
      · have : ingestLine H size now cache l = (cache, []) := by simp [ingestLine, parseLine, h1, h2, h3]
        refine ⟨?_, fun ha => absurd ha.2 (by omega)⟩
        rw [this] at mono ⊢
        exact mono
      · have ha : Accepted now l := ⟨by omega, by omega⟩
        have he : ingestLine H size now cache l = ((chainLoop H size cache l.chain).1,
            certsFromChain H l.leaf (chainLoop H size cache l.chain).2 (l.chain.map (fun c => H c.raw))) := by
          simp [ingestLine, parseLine, h1, h2, h3]
        rw [he] at mono ⊢
        dsimp only at mono ⊢
        have hn := hc.nodup hl ha
        unfold path at hn
        rw [List.nodup_cons] at hn
        have hall : ∀ y ∈ path H l, E y ∨ ∃ o ∈ certsFromChain H l.leaf (chainLoop H size cache l.chain).2 (l.chain.map (fun c => H c.raw)), o.id = y := by
          intro y hy
          unfold path at hy
          unfold certsFromChain
          rcases List.mem_cons.1 hy with rfl | hy
          · exact Or.inr ⟨_, List.mem_cons_self, rfl⟩
          · rcases chainLoop_emits H size E l.chain cache hn.2 (by
              intro x hx a t hat
              exact ⟨(hi x hx).1, (hi x hx).2 l hl ha (H l.leaf.raw :: a) t (by unfold path; rw [hat]; rfl)⟩) y hy with h | ⟨o, ho, hoy⟩
            · exact Or.inl h
            · exact Or.inr ⟨o, List.mem_cons_of_mem _ ho, hoy⟩
        refine ⟨?_, fun _ => hall⟩
        intro x hx
        rcases chainLoop_cache H size l.chain cache x hx with hx | hx
        · exact mono x hx
        · refine ⟨hall x (List.mem_cons_of_mem _ hx), ?_⟩
          intro l' hl' ha' a t hat y hy
          obtain ⟨a0, t0, h0⟩ := List.append_of_mem hx
          have hp : path H l = (H l.leaf.raw :: a0) ++ x :: t0 := by unfold path; rw [h0]; rfl
          have := hc l' hl' l hl ha' ha x a t _ t0 hat hp
          subst this
          exact hall y (by rw [hp]; simp [hy])

theorem ingestAll_emits {H : Bytes → Bytes} {size now : Nat} {all : List Line} (hc : Consistent H now all) : ∀ (ls : List Line) (E : Bytes → Prop)
    (cache : List Bytes), (∀ l ∈ ls, l ∈ all) → CacheInv H now all E cache →
    ∀ l ∈ ls, Accepted now l → ∀ y ∈ path H l, E y ∨ ∃ o ∈ ingestAll H size now cache ls, o.id = y
  | [], _, _, _, _, l, hl, _, _, _ => by cases hl
  | l0 :: ls, E, cache, hsub, hi, l, hl, ha, y, hy => by
    unfold ingestAll
    dsimp only
    have hs := ingestLine_spec (size := size) hc hi (hsub l0 List.mem_cons_self)
    rcases List.mem_cons.1 hl with rfl | hl
    · rcases hs.2 ha y hy with h | ⟨o, ho, h⟩
      · exact Or.inl h
      · exact Or.inr ⟨o, List.mem_append_left _ ho, h⟩
    · rcases ingestAll_emits hc ls _ _ (fun l h => hsub l (List.mem_cons_of_mem _ h)) hs.1 l hl ha y hy with (h | ⟨o, ho, h⟩) | ⟨o, ho, h⟩
      · exact Or.inl h
      · exact Or.inr ⟨o, List.mem_append_left _ ho, h⟩
      · exact Or.inr ⟨o, List.mem_append_right _ ho, h⟩

/-- C35 (partial: the chain after a certificate is the same in all lines): the ID of the leaf and of every chain certificate of every
accepted line is emitted by the worker, for any cache size. -/
theorem C35_every_certificate_emitted_partial (H : Bytes → Bytes) (size now : Nat) (ls : List Line) (hc : Consistent H now ls)
    (l : Line) (hl : l ∈ ls) (ha : Accepted now l) (y : Bytes) (hy : y ∈ path H l) : ∃ o ∈ ingestAll H size now [] ls, o.id = y := by
  rcases ingestAll_emits (size := size) hc ls (fun _ => False) [] (fun _ h => h) (by intro x hx; cases hx) l hl ha y hy with h | h
  · exact h.elim
  · exact h

theorem ancestors_real (H : Bytes → Bytes) (size : Nat) : ∀ (cs : List X509) (cache : List Bytes) (pre : List Bytes) (o : Out),
    o ∈ unfoldAncestors (chainLoop H size cache cs).2 (cs.map (fun c => H c.raw)) →
    ∃ (c : X509) (a t : List X509), cs = a ++ c :: t ∧ o = ⟨H c.raw, (t.map (fun c => H c.raw)).head?, none, c.notAfter, c.raw⟩
  | [], _, _, o, h => by simp [chainLoop, unfoldAncestors] at h
  | c :: cs, cache, pre, o, h => by
    unfold chainLoop at h
    by_cases hc : lruContains cache (H c.raw) = true
    · rw [if_pos hc] at h
      simp [unfoldAncestors] at h
    · rw [if_neg hc] at h
      rw [List.map_cons] at h
      dsimp only at h
      unfold unfoldAncestors at h
      rcases List.mem_cons.1 h with rfl | h
      · exact ⟨c, [], cs, rfl, rfl⟩
      · obtain ⟨c', a, t, h1, h2⟩ := ancestors_real H size cs _ pre o h
        exact ⟨c', c :: a, t, by rw [h1]; rfl, h2⟩

/-- C35: whatever the lines, everything emitted is a certificate of an accepted line, with its own ID and payload and the ID of the following
certificate of that line as its parent. -/
theorem C35_rows_are_real (H : Bytes → Bytes) (size now : Nat) (ls : List Line) (o : Out) (ho : o ∈ ingestAll H size now [] ls) :
    ∃ l ∈ ls, Accepted now l ∧ ∃ (c : X509) (a t : List X509), l.leaf :: l.chain = a ++ c :: t ∧ o.id = H c.raw ∧ o.raw = c.raw ∧
      o.notAfter = c.notAfter ∧ o.parent = t.head?.map (fun c => H c.raw) ∧ o.names = (if a = [] then some c.names else none) := by
  have : ∀ (ls : List Line) (cache : List Bytes), o ∈ ingestAll H size now cache ls → ∃ l ∈ ls, ∃ cache, o ∈ (ingestLine H size now cache l).2 := by
    intro ls
    induction ls with
    | nil => intro cache h; cases h
    | cons l ls ih =>
      intro cache h
      unfold ingestAll at h
      rcases List.mem_append.1 h with h | h
      · exact ⟨l, List.mem_cons_self, cache, h⟩
      · obtain ⟨l', h1, h2⟩ := ih _ h
        exact ⟨l', List.mem_cons_of_mem _ h1, h2⟩
  obtain ⟨l, hl, cache, h⟩ := this ls [] ho
  refine ⟨l, hl, ?_⟩
  unfold ingestLine parseLine at h
  by_cases h1 : l.exp < now
  · simp [h1] at h
  · rw [if_neg h1] at h
    by_cases h2 : lruContains cache (H l.leaf.raw) = true
    · simp [h2] at h
    · rw [if_neg h2] at h
      by_cases h3 : l.leaf.notAfter < now
      · simp [h3] at h
      · rw [if_neg h3] at h
        refine ⟨⟨by omega, by omega⟩, ?_⟩
        dsimp only at h
        unfold certsFromChain at h
        rcases List.mem_cons.1 h with rfl | h
        · exact ⟨l.leaf, [], l.chain, rfl, rfl, rfl, rfl, by simp [List.head?_map], by simp⟩
        · obtain ⟨c, a, t, h4, rfl⟩ := ancestors_real H size l.chain cache [] o h
          exact ⟨c, l.leaf :: a, t, by rw [h4]; rfl, rfl, rfl, rfl, by simp [List.head?_map], by simp⟩

theorem ingestAll_names {H : Bytes → Bytes} {size now : Nat} {l : Line} (ha : Accepted now l) : ∀ (ls : List Line) (cache : List Bytes),
    H l.leaf.raw ∉ cache → (∀ l' ∈ ls, H l.leaf.raw ∉ l'.chain.map (fun c => H c.raw)) → l ∈ ls →
    ∃ o ∈ ingestAll H size now cache ls, o.id = H l.leaf.raw ∧ o.names = some l.leaf.names
  | [], _, _, _, hl => by cases hl
  | l0 :: ls, cache, hnc, hch, hl => by
    unfold ingestAll
    dsimp only
    by_cases heq : l = l0
    · subst heq
      refine ⟨⟨H l.leaf.raw, (l.chain.map (fun c => H c.raw)).head?, some l.leaf.names, l.leaf.notAfter, l.leaf.raw⟩, List.mem_append_left _ ?_, rfl, rfl⟩
      have h1 : ¬ l.exp < now := by have := ha.1; omega
      have h3 : ¬ l.leaf.notAfter < now := by have := ha.2; omega
      have h2 : ¬ lruContains cache (H l.leaf.raw) = true := by simpa [lruContains] using hnc
      simp [ingestLine, parseLine, h1, h2, h3, certsFromChain]
    · have hl' : l ∈ ls := by rcases List.mem_cons.1 hl with h | h; exact absurd h heq; exact h
      have hcache : H l.leaf.raw ∉ (ingestLine H size now cache l0).1 := by
        unfold ingestLine parseLine
        dsimp only
        split
        · exact hnc
        · split
          · exact hnc
          · split
            · exact hnc
            · intro h
              rcases chainLoop_cache H size _ _ _ h with h | h
              · exact hnc h
              · exact hch l0 List.mem_cons_self h
      obtain ⟨o, ho, h⟩ := ingestAll_names ha ls _ hcache (fun l' h => hch l' (List.mem_cons_of_mem _ h)) hl'
      exact ⟨o, List.mem_append_right _ ho, h⟩

/-- C35 (partial: certificates that occur in no chain): the leaf of every accepted line is emitted with its names. -/
theorem C35_leaf_names_partial (H : Bytes → Bytes) (size now : Nat) (ls : List Line) (l : Line) (hl : l ∈ ls) (ha : Accepted now l)
    (hch : ∀ l' ∈ ls, H l.leaf.raw ∉ l'.chain.map (fun c => H c.raw)) :
    ∃ o ∈ ingestAll H size now [] ls, o.id = H l.leaf.raw ∧ o.names = some l.leaf.names :=
  ingestAll_names ha ls [] (by simp) hch hl

/-! Witnesses. -/

def crt (b : Byte) : X509 := ⟨[b], [[b, 0]], 10⟩

/-- Two leaves with a common chain. -/
def exLines : List Line := [⟨10, crt 1, [crt 8, crt 9]⟩, ⟨10, crt 2, [crt 8, crt 9]⟩, ⟨3, crt 3, [crt 9]⟩]

theorem exLines_consistent : Consistent id 5 exLines := by
  intro l1 h1 l2 h2 ha1 ha2 x a1 t1 a2 t2 e1 e2
  have hl : ∀ l ∈ exLines, Accepted 5 l → path id l = [[1], [8], [9]] ∨ path id l = [[2], [8], [9]] := by
    intro l hl ha
    simp only [exLines, List.mem_cons, List.not_mem_nil, or_false] at hl
    rcases hl with rfl | rfl | rfl
    · exact Or.inl rfl
    · exact Or.inr rfl
    · exact absurd ha.1 (by decide)
  have hs : ∀ (p q r : Bytes) (a t : List Bytes), p ≠ q → q ≠ r → p ≠ r → [p, q, r] = a ++ x :: t → (x = p ∧ t = [q, r]) ∨ (x = q ∧ t = [r]) ∨ (x = r ∧ t = []) := by
    intro p q r a t _ _ _ h
    rcases a with _ | ⟨_, _ | ⟨_, _ | ⟨_, _⟩⟩⟩ <;> simp_all
  rcases hl l1 h1 ha1 with h1 | h1 <;> rcases hl l2 h2 ha2 with h2 | h2 <;> rw [h1] at e1 <;> rw [h2] at e2 <;>
    rcases hs _ _ _ _ _ (by decide) (by decide) (by decide) e1 with ⟨r1, r2⟩ | ⟨r1, r2⟩ | ⟨r1, r2⟩ <;>
    rcases hs _ _ _ _ _ (by decide) (by decide) (by decide) e2 with ⟨r3, r4⟩ | ⟨r3, r4⟩ | ⟨r3, r4⟩ <;> subst r1 <;> first | (rw [r2, r4]; done) | (exact absurd r3 (by decide))

example : Consistent id 5 exLines ∧ (∃ l ∈ exLines, Accepted 5 l ∧ ([8] : Bytes) ∈ path id l) ∧
    (ingestAll id 100 5 [] exLines).map Out.id = [[1], [8], [9], [2]] :=
  ⟨exLines_consistent, ⟨⟨10, crt 2, [crt 8, crt 9]⟩, by simp [exLines], ⟨by decide, by decide⟩, by decide⟩, by decide⟩

/-- Chains with different issuers of the same certificate (cross-signing). -/
def crossLines : List Line := [⟨10, crt 1, [crt 7, crt 9]⟩, ⟨10, crt 2, [crt 7, crt 8]⟩, ⟨10, crt 3, [crt 8]⟩]

/-- C35 is violated: certificate 8 is the issuer of 7 in the second line and of the leaf in the third, all lines are accepted, but it
is never emitted (cache of 100 entries). -/
theorem C35_every_certificate_emitted_violated : ∃ (ls : List Line) (y : Bytes), (∀ l ∈ ls, Accepted 5 l) ∧
    (∃ l ∈ ls, y ∈ path id l) ∧ ∀ o ∈ ingestAll id 100 5 [] ls, o.id ≠ y :=
  ⟨crossLines, [8], by simp [crossLines, Accepted, crt], ⟨⟨10, crt 3, [crt 8]⟩, by simp [crossLines], by decide⟩, by decide⟩

/-- C35: a leaf that was seen in a chain before is skipped, so its names are never emitted. -/
theorem C35_leaf_names_violated : ∃ (ls : List Line) (l : Line), l ∈ ls ∧ (∀ l ∈ ls, Accepted 5 l) ∧ l.leaf.names ≠ [] ∧
    ∀ o ∈ ingestAll id 100 5 [] ls, o.names ≠ some l.leaf.names :=
  ⟨[⟨10, crt 1, [crt 7, crt 9]⟩, ⟨10, crt 7, [crt 9]⟩], ⟨10, crt 7, [crt 9]⟩, by simp, by simp [Accepted, crt], by decide, by decide⟩

end Fpki.Chains
