import Verif.Props.DbSql
import Verif.Lemmas.BenchPlan

/-! Lemmas for `Verif.Props.Bench`: the rows of the fixture. -/
namespace Fpki.Bench
open Fpki.Db

theorem be_lt : ∀ (k : Nat) {n m : Nat}, n < m → m < 256 ^ k → bytesLt (be k n) (be k m) = true
  | 0, n, m, h, hm => by simp at hm; omega
  | k + 1, n, m, h, hm => by
    have hpos : 0 < 256 ^ k := Nat.pow_pos (by decide)
    rw [Nat.pow_succ] at hm
    have h1 : n / 256 ^ k < 256 := Nat.div_lt_of_lt_mul (by omega)
    have h2 : m / 256 ^ k < 256 := Nat.div_lt_of_lt_mul (by omega)
    have h3 : n / 256 ^ k ≤ m / 256 ^ k := Nat.div_le_div_right h.le
    unfold be bytesLt
    rcases Nat.lt_or_eq_of_le h3 with h4 | h4
    · rw [if_pos]
      rw [UInt8.lt_iff_toNat_lt, UInt8.toNat_ofNat', UInt8.toNat_ofNat', Nat.mod_eq_of_lt h1, Nat.mod_eq_of_lt h2]
      exact h4
    · rw [h4, if_neg (by simp), if_neg (by simp)]
      apply be_lt k _ (Nat.mod_lt _ hpos)
      have e1 := Nat.div_add_mod n (256 ^ k)
      have e2 := Nat.div_add_mod m (256 ^ k)
      rw [h4] at e1
      omega

theorem lt_append (l : Bytes) {a b : Bytes} (h : bytesLt a b = true) : bytesLt (l ++ a) (l ++ b) = true := by
  induction l with
  | nil => exact h
  | cons x l ih => rw [List.cons_append, List.cons_append, bytesLt, if_neg (by simp), if_neg (by simp)]; exact ih

theorem linear_lt (pre : Byte) {n m : Nat} (h : n < m) (hm : m < 2 ^ 64) : bytesLt (makeLinearID pre n) (makeLinearID pre m) = true := by
  unfold makeLinearID
  rw [Nat.mod_eq_of_lt hm, Nat.mod_eq_of_lt (h.trans hm), ← List.cons_append, ← List.cons_append]
  exact lt_append _ (be_lt 8 h (by simpa using hm))

theorem be_inj {n m : Nat} (hn : n < 2 ^ 64) (hm : m < 2 ^ 64) (h : be 8 n = be 8 m) : n = m := by
  rcases Nat.lt_trichotomy n m with h1 | h1 | h1
  · have := be_lt 8 h1 (by simpa using hm); rw [h, bytesLt_irrefl] at this; cases this
  · exact h1
  · have := be_lt 8 h1 (by simpa using hn); rw [h, bytesLt_irrefl] at this; cases this

theorem linear_inj {pre pre' : Byte} {n m : Nat} (hn : n < 2 ^ 64) (hm : m < 2 ^ 64) (h : makeLinearID pre n = makeLinearID pre' m) : n = m := by
  unfold makeLinearID at h
  have h1 := (List.append_inj (List.cons.inj h).2 rfl).2
  rw [Nat.mod_eq_of_lt hn, Nat.mod_eq_of_lt hm] at h1
  exact be_inj hn hm h1

theorem be_length : ∀ (k n : Nat), (be k n).length = k
  | 0, _ => rfl
  | k + 1, n => by rw [be, List.length_cons, be_length k]

theorem linear_length (pre : Byte) (n : Nat) : (makeLinearID pre n).length = 32 := by
  unfold makeLinearID
  rw [List.length_cons, List.length_append, List.length_replicate, be_length]

theorem linear_ne_nil (pre : Byte) (n : Nat) : makeLinearID pre n ≠ [] := by unfold makeLinearID; simp

/-- The ID of a domain. -/
def domainID (p o : Nat) : Bytes := makeLinearID (UInt8.ofNat (p <<< 3)) (o + 1)

theorem makeDomainID_some {p : Nat} (hp : p < 32) (o : Nat) : makeDomainID p o = some (domainID p o) := by
  unfold makeDomainID domainID
  dsimp only
  rw [if_pos]
  have : ∀ p < 32, (UInt8.ofNat (p <<< 3)).toNat >>> ((8 + 256 - Batch.numBitsForPartitionCount partitionCount % 256) % 256) = p := by decide +kernel
  exact this p hp

theorem insertIgnore_all {κ : Type} [BEq κ] [LawfulBEq κ] (key : α → κ) : ∀ (rows t : List α), ((t ++ rows).map key).Nodup → insertIgnore key t rows = t ++ rows
  | [], t, _ => by simp [insertIgnore]
  | r :: rows, t, h => by
    unfold insertIgnore
    rw [List.foldl_cons]
    have hn : t.any (fun x => key x == key r) = false := by
      rw [List.any_eq_false]
      intro x hx hk
      rw [List.map_append, List.nodup_append] at h
      exact h.2.2 (key x) (List.mem_map.2 ⟨x, hx, rfl⟩) (key r) (by simp) (by simpa using hk)
    rw [hn]
    have := insertIgnore_all key rows (t ++ [r]) (by simpa using h)
    unfold insertIgnore at this
    rw [if_neg (by simp), this]
    simp

/-! ## Closures -/

theorem closure_mem {certs : List Cert} {links : List (Bytes × Bytes)} {d : Bytes} {c : Cert} (h : InClosure certs links d c) : c ∈ certs := by
  cases h with
  | link _ h _ => exact h
  | parent _ _ _ h _ => exact h

/-- New rows that nothing old refers to do not change what belongs to a domain without new links. -/
theorem closure_old {certs new : List Cert} {links newl : List (Bytes × Bytes)} {d : Bytes} (h1 : ∀ p ∈ new, (∀ c ∈ certs, p.id ≠ c.parent) ∧ ∀ l ∈ links, l.2 ≠ p.id)
    (h2 : ∀ l ∈ newl, l.1 ≠ d) (c : Cert) : InClosure (certs ++ new) (links ++ newl) d c ↔ InClosure certs links d c := by
  constructor
  · intro h
    induction h with
    | link c hc hl =>
      rcases List.mem_append.1 hl with hl | hl
      · rcases List.mem_append.1 hc with hc | hc
        · exact .link c hc hl
        · exact absurd rfl ((h1 c hc).2 _ hl)
      · exact absurd rfl (h2 _ hl)
    | parent c p _ hp he ih =>
      rcases List.mem_append.1 hp with hp | hp
      · exact .parent c p ih hp he
      · exact absurd he ((h1 p hp).1 c (closure_mem ih))
  · intro h
    induction h with
    | link c hc hl => exact .link c (List.mem_append_left _ hc) (List.mem_append_left _ hl)
    | parent c p _ hp he ih => exact .parent c p ih (List.mem_append_left _ hp) he

theorem isAgg_old {certs new : List Cert} {links newl : List (Bytes × Bytes)} {d : Bytes} {v : Option Bytes} (h : IsAgg certs links d v)
    (h1 : ∀ p ∈ new, (∀ c ∈ certs, p.id ≠ c.parent) ∧ ∀ l ∈ links, l.2 ≠ p.id) (h2 : ∀ l ∈ newl, l.1 ≠ d) : IsAgg (certs ++ new) (links ++ newl) d v := by
  obtain ⟨ids, a, b, c⟩ := h
  refine ⟨ids, a, fun i => ?_, c⟩
  rw [b]
  constructor
  · rintro ⟨x, hx, e⟩; exact ⟨x, (closure_old h1 h2 x).2 hx, e⟩
  · rintro ⟨x, hx, e⟩; exact ⟨x, (closure_old h1 h2 x).1 hx, e⟩

theorem isAgg_none {certs : List Cert} {links : List (Bytes × Bytes)} {d : Bytes} (h : ∀ l ∈ links, l.1 ≠ d) : IsAgg certs links d none := by
  have hno : ∀ c, ¬ InClosure certs links d c := by
    intro c hc
    induction hc with
    | link c _ hl => exact h _ hl rfl
    | parent _ _ _ _ _ ih => exact ih
  exact ⟨[], List.Pairwise.nil, fun i => ⟨fun h => (by cases h), fun ⟨c, hc, _⟩ => absurd hc (hno c)⟩, rfl⟩

/-- The rows of a new domain are among the new ones. -/
theorem closure_new {certs new : List Cert} {links newl : List (Bytes × Bytes)} {d : Bytes} (hd : ∀ l ∈ links, l.1 ≠ d) (hl : ∀ l ∈ newl, ∃ c ∈ new, c.id = l.2)
    (hold : ∀ c ∈ certs, ∀ n ∈ new, c.id ≠ n.id) (hne : ∀ c ∈ certs ++ new, c.id ≠ []) (hpar : ∀ c ∈ new, c.parent = [] ∨ ∃ n ∈ new, n.id = c.parent) {c : Cert}
    (h : InClosure (certs ++ new) (links ++ newl) d c) : c ∈ new := by
  induction h with
  | link c hc hlk =>
    rcases List.mem_append.1 hlk with h | h
    · exact absurd rfl (hd _ h)
    · obtain ⟨n, hn, e⟩ := hl _ h
      rcases List.mem_append.1 hc with hc | hc
      · exact absurd e.symm (hold c hc n hn)
      · exact hc
  | parent c p _ hp he ih =>
    rcases hpar c ih with h | ⟨n, hn, e⟩
    · exact absurd (he.trans h) (hne p hp)
    · rcases List.mem_append.1 hp with hp | hp
      · exact absurd (he.trans e.symm) (hold p hp n hn)
      · exact hp

theorem sorted_aggregate {ids : List Bytes} (h : ids.Pairwise (fun a b => bytesLt a b = true)) : aggregateIDs ids = ids.flatten := by
  unfold aggregateIDs
  rw [List.mergeSort_of_pairwise]
  exact h.imp (fun h => by rw [bytesLt_asymm h]; rfl)

theorem isAgg_new {certs new : List Cert} {links newl : List (Bytes × Bytes)} {d : Bytes} (hd : ∀ l ∈ links, l.1 ≠ d) (hl : ∀ l ∈ newl, ∃ c ∈ new, c.id = l.2)
    (hold : ∀ c ∈ certs, ∀ n ∈ new, c.id ≠ n.id) (hne : ∀ c ∈ certs ++ new, c.id ≠ []) (hpar : ∀ c ∈ new, c.parent = [] ∨ ∃ n ∈ new, n.id = c.parent)
    (hin : ∀ c ∈ new, InClosure new newl d c) (hs : (new.map Cert.id).Pairwise (fun a b => bytesLt a b = true)) (hnew : new ≠ []) :
    IsAgg (certs ++ new) (links ++ newl) d (some (aggregateIDs (new.map Cert.id))) := by
  refine ⟨new.map Cert.id, hs, fun i => ?_, ?_⟩
  · rw [List.mem_map]
    constructor
    · rintro ⟨c, hc, e⟩
      refine ⟨c, ?_, e⟩
      have := hin c hc
      clear hc e
      induction this with
      | link c hc hl => exact .link c (List.mem_append_right _ hc) (List.mem_append_right _ hl)
      | parent c p _ hp he ih => exact .parent c p ih (List.mem_append_right _ hp) he
    · rintro ⟨c, hc, e⟩
      exact ⟨c, closure_new hd hl hold hne hpar hc, e⟩
  · rw [if_neg (by simpa using hnew), sorted_aggregate hs]

end Fpki.Bench
