import Verif.Lemmas.BenchRows

/-! Lemmas for `Verif.Props.Bench`: the files of the fixture, and what coalescing makes of them. -/
namespace Fpki.Bench
open Fpki.Db

/-- A table of certificates (or policies) with its links: the IDs are numbered below `seed`, the domains below `ord`. -/
structure Tab (pre : Byte) (seed ord : Nat) (certs : List Cert) (links : List (Bytes × Bytes)) : Prop where
  cid : ∀ c ∈ certs, ∃ n, n < seed ∧ c.id = makeLinearID pre n
  par : ∀ c ∈ certs, c.parent = [] ∨ ∃ n, n < seed ∧ c.parent = makeLinearID pre n
  link : ∀ l ∈ links, (∃ p o, o < ord ∧ l.1 = domainID p o) ∧ ∃ n, n < seed ∧ l.2 = makeLinearID pre n
  ndid : (certs.map Cert.id).Nodup
  ndl : links.Nodup

/-- The rows of one domain. -/
structure Block (pre : Byte) (seed k : Nat) (new : List Cert) (newl : List (Bytes × Bytes)) (d : Bytes) : Prop where
  ids : new.map Cert.id = (List.range k).map (fun j => makeLinearID pre (seed + j))
  par : ∀ c ∈ new, c.parent = [] ∨ ∃ n ∈ new, n.id = c.parent
  link : ∀ l ∈ newl, l.1 = d ∧ ∃ c ∈ new, c.id = l.2
  ndl : newl.Nodup
  inn : ∀ c ∈ new, InClosure new newl d c
  pos : 0 < k

theorem Block.cid {pre : Byte} {seed k : Nat} {new : List Cert} {newl : List (Bytes × Bytes)} {d : Bytes} (b : Block pre seed k new newl d) {c : Cert} (hc : c ∈ new) :
    ∃ j, j < k ∧ c.id = makeLinearID pre (seed + j) := by
  have : c.id ∈ new.map Cert.id := List.mem_map.2 ⟨c, hc, rfl⟩
  rw [b.ids] at this
  obtain ⟨j, hj, e⟩ := List.mem_map.1 this
  exact ⟨j, List.mem_range.1 hj, e.symm⟩

theorem Block.sorted {pre : Byte} {seed k : Nat} {new : List Cert} {newl : List (Bytes × Bytes)} {d : Bytes} (b : Block pre seed k new newl d) (h : seed + k < 2 ^ 64) :
    (new.map Cert.id).Pairwise (fun a b => bytesLt a b = true) := by
  rw [b.ids, List.pairwise_map]
  have : (List.range k).Pairwise (fun i j => i < j ∧ j < k) := by
    rw [List.pairwise_iff_getElem]
    intro i j hi hj hij
    simp only [List.getElem_range]
    rw [List.length_range] at hj
    exact ⟨hij, hj⟩
  exact this.imp (fun {i j} h' => linear_lt pre (by omega) (by omega))

theorem domain_inj {p o p' o' : Nat} (h : o + 1 < 2 ^ 64) (h' : o' + 1 < 2 ^ 64) (e : domainID p o = domainID p' o') : o = o' := by
  have := linear_inj h h' e
  omega

theorem Tab.mono {pre : Byte} {seed ord ord' : Nat} {certs : List Cert} {links : List (Bytes × Bytes)} (t : Tab pre seed ord certs links) (h : ord ≤ ord') : Tab pre seed ord' certs links :=
  ⟨t.cid, t.par, fun l hl => by
    obtain ⟨⟨p, o, h1, h2⟩, h3⟩ := t.link l hl
    exact ⟨⟨p, o, by omega, h2⟩, h3⟩, t.ndid, t.ndl⟩

theorem Tab.new_unrelated {pre : Byte} {seed ord k : Nat} {certs new : List Cert} {links newl : List (Bytes × Bytes)} {d : Bytes} (t : Tab pre seed ord certs links)
    (b : Block pre seed k new newl d) (h : seed + k < 2 ^ 64) : ∀ p ∈ new, (∀ c ∈ certs, p.id ≠ c.parent) ∧ ∀ l ∈ links, l.2 ≠ p.id := by
  intro p hp
  obtain ⟨j, hj, e⟩ := b.cid hp
  refine ⟨fun c hc he => ?_, fun l hl he => ?_⟩
  · rcases t.par c hc with h0 | ⟨n, hn, h0⟩
    · rw [h0, e] at he; exact linear_ne_nil _ _ he
    · rw [h0, e] at he
      have := linear_inj (by omega) (by omega) he
      omega
  · obtain ⟨n, hn, h0⟩ := (t.link l hl).2
    rw [h0, e] at he
    have := linear_inj (by omega) (by omega) he
    omega

theorem Tab.no_link {pre : Byte} {seed ord : Nat} {certs : List Cert} {links : List (Bytes × Bytes)} (t : Tab pre seed ord certs links) (p : Nat) (h : ord + 1 < 2 ^ 64) :
    ∀ l ∈ links, l.1 ≠ domainID p ord := by
  intro l hl e
  obtain ⟨⟨p', o, h1, h2⟩, _⟩ := t.link l hl
  rw [h2] at e
  have := domain_inj (by omega) h e
  omega

theorem Tab.add {pre : Byte} {seed ord k : Nat} {certs new : List Cert} {links newl : List (Bytes × Bytes)} {p : Nat} (t : Tab pre seed ord certs links)
    (b : Block pre seed k new newl (domainID p ord)) (h : seed + k < 2 ^ 64) (ho : ord + 1 < 2 ^ 64) : Tab pre (seed + k) (ord + 1) (certs ++ new) (links ++ newl) := by
  refine ⟨?_, ?_, ?_, ?_, ?_⟩
  · intro c hc
    rcases List.mem_append.1 hc with hc | hc
    · obtain ⟨n, h1, h2⟩ := t.cid c hc; exact ⟨n, by omega, h2⟩
    · obtain ⟨j, h1, h2⟩ := b.cid hc; exact ⟨seed + j, by omega, h2⟩
  · intro c hc
    rcases List.mem_append.1 hc with hc | hc
    · rcases t.par c hc with h0 | ⟨n, h1, h2⟩
      · exact Or.inl h0
      · exact Or.inr ⟨n, by omega, h2⟩
    · rcases b.par c hc with h0 | ⟨n, h1, h2⟩
      · exact Or.inl h0
      · obtain ⟨j, h3, h4⟩ := b.cid h1
        exact Or.inr ⟨seed + j, by omega, by rw [← h2, h4]⟩
  · intro l hl
    rcases List.mem_append.1 hl with hl | hl
    · obtain ⟨⟨p, o, h1, h2⟩, n, h3, h4⟩ := t.link l hl
      exact ⟨⟨p, o, by omega, h2⟩, n, by omega, h4⟩
    · obtain ⟨h1, c, h2, h3⟩ := b.link l hl
      obtain ⟨j, h4, h5⟩ := b.cid h2
      exact ⟨⟨p, ord, by omega, h1⟩, seed + j, by omega, by rw [← h3, h5]⟩
  · rw [List.map_append, List.nodup_append]
    refine ⟨t.ndid, (b.sorted h).imp (fun h => bytesLt_ne h), ?_⟩
    intro x hx y hy e
    obtain ⟨c, hc, rfl⟩ := List.mem_map.1 hx
    obtain ⟨c', hc', rfl⟩ := List.mem_map.1 hy
    obtain ⟨n, h1, h2⟩ := t.cid c hc
    obtain ⟨j, h3, h4⟩ := b.cid hc'
    rw [h2, h4] at e
    have := linear_inj (by omega) (by omega) e
    omega
  · rw [List.nodup_append]
    refine ⟨t.ndl, b.ndl, ?_⟩
    intro x hx y hy e
    subst e
    exact t.no_link p ho x hx (b.link x hy).1

theorem Tab.agg_old {pre : Byte} {seed ord k : Nat} {certs new : List Cert} {links newl : List (Bytes × Bytes)} {p p' o : Nat} {v : Option Bytes} (t : Tab pre seed ord certs links)
    (b : Block pre seed k new newl (domainID p ord)) (h : seed + k < 2 ^ 64) (ho : ord + 1 < 2 ^ 64) (hlt : o < ord) (hv : IsAgg certs links (domainID p' o) v) :
    IsAgg (certs ++ new) (links ++ newl) (domainID p' o) v := by
  refine isAgg_old hv (t.new_unrelated b h) ?_
  intro l hl e
  rw [(b.link l hl).1] at e
  have := domain_inj ho (by omega) e
  omega

theorem Tab.agg_new {pre : Byte} {seed ord k : Nat} {certs new : List Cert} {links newl : List (Bytes × Bytes)} {p : Nat} (t : Tab pre seed ord certs links)
    (b : Block pre seed k new newl (domainID p ord)) (h : seed + k < 2 ^ 64) (ho : ord + 1 < 2 ^ 64) :
    IsAgg (certs ++ new) (links ++ newl) (domainID p ord) (some (aggregateIDs (new.map Cert.id))) := by
  refine isAgg_new (t.no_link p ho) (fun l hl => (b.link l hl).2) ?_ ?_ b.par b.inn (b.sorted h) ?_
  · intro c hc n hn e
    obtain ⟨m, h1, h2⟩ := t.cid c hc
    obtain ⟨j, h3, h4⟩ := b.cid hn
    rw [h2, h4] at e
    have := linear_inj (by omega) (by omega) e
    omega
  · intro c hc
    rcases List.mem_append.1 hc with hc | hc
    · obtain ⟨m, _, h2⟩ := t.cid c hc
      rw [h2]; exact linear_ne_nil _ _
    · obtain ⟨j, _, h4⟩ := b.cid hc
      rw [h4]; exact linear_ne_nil _ _
  · intro h0
    have := congrArg List.length b.ids
    rw [h0] at this
    simp at this
    have := b.pos
    omega

theorem certBlock (seed : Nat) (d : Bytes) (h : seed + 4 < 2 ^ 64) : Block 0x40 seed 4 (buildCertRows seed).1 ((buildCertRows seed).2.map (fun l => (d, l))) d := by
  have hne : makeLinearID 0x40 (seed + 2) ≠ makeLinearID 0x40 (seed + 3) := fun e => by
    have := linear_inj (by omega) (by omega) e
    omega
  have lA : InClosure (buildCertRows seed).1 ((buildCertRows seed).2.map (fun l => (d, l))) d ⟨makeLinearID 0x40 (seed + 2), makeLinearID 0x40 (seed + 1), 0, []⟩ :=
    .link _ (by simp [buildCertRows]) (by simp [buildCertRows])
  have lB : InClosure (buildCertRows seed).1 ((buildCertRows seed).2.map (fun l => (d, l))) d ⟨makeLinearID 0x40 (seed + 3), makeLinearID 0x40 seed, 0, []⟩ :=
    .link _ (by simp [buildCertRows]) (by simp [buildCertRows])
  refine ⟨rfl, ?_, ?_, ?_, ?_, by decide⟩
  · intro c hc
    simp only [buildCertRows, List.mem_cons, List.not_mem_nil, or_false] at hc
    rcases hc with rfl | rfl | rfl | rfl <;> simp [buildCertRows]
  · intro l hl
    simp only [buildCertRows, List.map_cons, List.map_nil, List.mem_cons, List.not_mem_nil, or_false] at hl
    rcases hl with rfl | rfl <;> simp [buildCertRows]
  · simpa [buildCertRows] using hne
  · intro c hc
    simp only [buildCertRows, List.mem_cons, List.not_mem_nil, or_false] at hc
    have lM : InClosure (buildCertRows seed).1 ((buildCertRows seed).2.map (fun l => (d, l))) d ⟨makeLinearID 0x40 (seed + 1), makeLinearID 0x40 seed, 0, []⟩ :=
      .parent _ _ lA (by simp [buildCertRows]) rfl
    rcases hc with rfl | rfl | rfl | rfl
    · exact .parent _ _ lB (by simp [buildCertRows]) rfl
    · exact lM
    · exact lA
    · exact lB

theorem policyBlock (seed : Nat) (d : Bytes) : Block 0x80 seed 3 (buildPolicyRows seed) (buildDomainPolicyRows d (seed + 2)) d := by
  have lA : InClosure (buildPolicyRows seed) (buildDomainPolicyRows d (seed + 2)) d ⟨makeLinearID 0x80 (seed + 2), makeLinearID 0x80 (seed + 1), 0, []⟩ :=
    .link _ (by simp [buildPolicyRows]) (by simp [buildDomainPolicyRows])
  have lM : InClosure (buildPolicyRows seed) (buildDomainPolicyRows d (seed + 2)) d ⟨makeLinearID 0x80 (seed + 1), makeLinearID 0x80 seed, 0, []⟩ :=
    .parent _ _ lA (by simp [buildPolicyRows]) rfl
  refine ⟨rfl, ?_, ?_, by simp [buildDomainPolicyRows], ?_, by decide⟩
  · intro c hc
    simp only [buildPolicyRows, List.mem_cons, List.not_mem_nil, or_false] at hc
    rcases hc with rfl | rfl | rfl <;> simp [buildPolicyRows]
  · intro l hl
    simp only [buildDomainPolicyRows, List.mem_cons, List.not_mem_nil, or_false] at hl
    subst hl; simp [buildPolicyRows]
  · intro c hc
    simp only [buildPolicyRows, List.mem_cons, List.not_mem_nil, or_false] at hc
    rcases hc with rfl | rfl | rfl
    · exact .parent _ _ lM (by simp [buildPolicyRows]) rfl
    · exact lM
    · exact lA

/-- What holds of the files after `a` domains with certificates, `m` with policies too and `s` stale ones. -/
structure Good (f : Files) (a m s : Nat) : Prop where
  ord : f.ordinal = a + m + s
  cseed : f.certSeed = 1 + 4 * (a + m)
  pseed : f.policySeed = 1 + 3 * m
  tabC : Tab 0x40 f.certSeed f.ordinal f.certs f.domainCerts
  tabP : Tab 0x80 f.policySeed f.ordinal f.policies f.domainPolicies
  dom : ∀ x ∈ f.domains, ∃ p o, o < f.ordinal ∧ x.1 = domainID p o
  ndd : (f.domains.map Prod.fst).Nodup
  dirty : f.dirty = f.domains.map (fun x => (x.1, false))
  ndp : (f.payloads.map Payload.domain).Nodup
  pay : ∀ r ∈ f.payloads, ∃ x ∈ f.domains, x.1 = r.domain ∧ staleName x.2 = true
  exp : ∀ r ∈ f.expected, r.certIds ≠ none ∧ IsAgg f.certs f.domainCerts r.domain r.certIds ∧ IsAgg f.policies f.domainPolicies r.domain r.policyIds
  expdom : ∀ r ∈ f.expected, ∃ x ∈ f.domains, x.1 = r.domain ∧ staleName x.2 = false
  kind : ∀ x ∈ f.domains, (∃ r ∈ f.expected, r.domain = x.1) ∨ (staleName x.2 = true ∧ (∀ l ∈ f.domainCerts, l.1 ≠ x.1) ∧ ∀ l ∈ f.domainPolicies, l.1 ≠ x.1)
  lenC : f.certs.length = 4 * (a + m)
  lenDC : f.domainCerts.length = 2 * (a + m)
  lenP : f.policies.length = 3 * m
  lenDP : f.domainPolicies.length = m
  lenPay : f.payloads.length = s
  lenD : f.domains.length = a + m + s
  lenE : f.expected.length = a + m
  nde : (f.expected.map Payload.domain).Nodup
  polE : (f.expected.filter (fun r => r.policyIds.isSome)).length = m
  polLen : ∀ r ∈ f.expected, ∀ v, r.policyIds = some v → v.length = 96
  lenS : (f.domains.filter (fun x => staleName x.2)).length = s

theorem good_start : Good noFiles 0 0 0 := by
  refine ⟨rfl, rfl, rfl, ?_, ?_, ?_, List.nodup_nil, rfl, List.nodup_nil, ?_, ?_, ?_, ?_, rfl, rfl, rfl, rfl, rfl, rfl, rfl, List.nodup_nil, rfl, ?_, rfl⟩
  · exact ⟨by simp [noFiles], by simp [noFiles], by simp [noFiles], by simp [noFiles], by simp [noFiles]⟩
  · exact ⟨by simp [noFiles], by simp [noFiles], by simp [noFiles], by simp [noFiles], by simp [noFiles]⟩
  all_goals simp [noFiles]

theorem Good.fresh {f : Files} {a m s : Nat} (g : Good f a m s) (p : Nat) (h : f.ordinal + 1 < 2 ^ 64) : ∀ x ∈ f.domains, x.1 ≠ domainID p f.ordinal := by
  intro x hx e
  obtain ⟨p', o, h1, h2⟩ := g.dom x hx
  rw [h2] at e
  have := domain_inj (by omega) h e
  omega

theorem Good.dom_snoc {f : Files} {a m s : Nat} (g : Good f a m s) (p : Nat) (h : f.ordinal + 1 < 2 ^ 64) (name : Bytes) :
    (∀ x ∈ f.domains ++ [(domainID p f.ordinal, name)], ∃ p o, o < f.ordinal + 1 ∧ x.1 = domainID p o) ∧ ((f.domains ++ [(domainID p f.ordinal, name)]).map Prod.fst).Nodup ∧
      f.dirty ++ [(domainID p f.ordinal, false)] = (f.domains ++ [(domainID p f.ordinal, name)]).map (fun x => (x.1, false)) := by
  refine ⟨?_, ?_, ?_⟩
  · intro x hx
    rcases List.mem_append.1 hx with hx | hx
    · obtain ⟨p', o, h1, h2⟩ := g.dom x hx; exact ⟨p', o, by omega, h2⟩
    · rw [List.mem_singleton.1 hx]; exact ⟨p, f.ordinal, by omega, rfl⟩
  · rw [List.map_append, List.nodup_append]
    refine ⟨g.ndd, by simp, ?_⟩
    intro x hx y hy e
    obtain ⟨z, hz, rfl⟩ := List.mem_map.1 hx
    simp only [List.map_cons, List.map_nil, List.mem_singleton] at hy
    exact g.fresh p h z hz (e.trans hy)
  · rw [g.dirty, List.map_append]; rfl

theorem Good.stale {f : Files} {a m s : Nat} (g : Good f a m s) (p : Nat) (h : f.ordinal + 1 < 2 ^ 64) (name : Bytes) (hn : staleName name = true) :
    Good (addStale f (domainID p f.ordinal) name) a m (s + 1) := by
  obtain ⟨d1, d2, d3⟩ := g.dom_snoc p h name
  refine ⟨by simp only [addStale, g.ord]; omega, g.cseed, g.pseed, g.tabC.mono (Nat.le_succ _), g.tabP.mono (Nat.le_succ _), d1, d2, d3, ?_, ?_, g.exp, ?_, ?_, g.lenC, g.lenDC,
    g.lenP, g.lenDP, ?_, ?_, g.lenE, g.nde, g.polE, g.polLen, ?_⟩
  · simp only [addStale]
    rw [List.map_append, List.nodup_append]
    refine ⟨g.ndp, by simp, ?_⟩
    intro x hx y hy e
    obtain ⟨r, hr, rfl⟩ := List.mem_map.1 hx
    simp only [List.map_cons, List.map_nil, List.mem_singleton] at hy
    obtain ⟨z, hz, hz', _⟩ := g.pay r hr
    exact g.fresh p h z hz (hz'.trans (e.trans hy))
  · intro r hr
    simp only [addStale] at hr ⊢
    rcases List.mem_append.1 hr with hr | hr
    · obtain ⟨x, h1, h2⟩ := g.pay r hr; exact ⟨x, List.mem_append_left _ h1, h2⟩
    · rw [List.mem_singleton.1 hr]; exact ⟨_, List.mem_append_right _ (List.mem_singleton.2 rfl), rfl, hn⟩
  · intro r hr
    obtain ⟨x, h1, h2⟩ := g.expdom r hr
    exact ⟨x, List.mem_append_left _ h1, h2⟩
  · intro x hx
    simp only [addStale] at hx ⊢
    rcases List.mem_append.1 hx with hx | hx
    · exact g.kind x hx
    · rw [List.mem_singleton.1 hx]
      exact Or.inr ⟨hn, g.tabC.no_link p h, g.tabP.no_link p h⟩
  · simp only [addStale, List.length_append, g.lenPay]; rfl
  · simp only [addStale, List.length_append, g.lenD]; simp; omega
  · simp only [addStale, List.filter_append, List.length_append, g.lenS]; simp [hn]

/-- What is left of the proof for both kinds of active domains. -/
theorem Good.active {f : Files} {a m s k : Nat} (g : Good f a m s) (p : Nat) (h : f.ordinal + 1 < 2 ^ 64) (hc : f.certSeed + 4 < 2 ^ 64) (hp : f.policySeed + 3 < 2 ^ 64) (name : Bytes) (hn : staleName name = false)
    (pol : List Cert) (dpol : List (Bytes × Bytes)) (v : Option Bytes)
    (hpol : (k = 0 ∧ pol = [] ∧ dpol = [] ∧ v = none) ∨ (k = 1 ∧ Block 0x80 f.policySeed 3 pol dpol (domainID p f.ordinal) ∧ dpol.length = 1 ∧ v = some (aggregateIDs (pol.map Cert.id)))) :
    Good { f with
      domains := f.domains ++ [(domainID p f.ordinal, name)]
      dirty := f.dirty ++ [(domainID p f.ordinal, false)]
      certs := f.certs ++ (buildCertRows f.certSeed).1
      domainCerts := f.domainCerts ++ (buildCertRows f.certSeed).2.map (fun l => (domainID p f.ordinal, l))
      certSeed := f.certSeed + 4
      expected := f.expected ++ [⟨domainID p f.ordinal, some (aggregateIDs ((buildCertRows f.certSeed).1.map Cert.id)), v⟩]
      policies := f.policies ++ pol
      domainPolicies := f.domainPolicies ++ dpol
      policySeed := f.policySeed + 3 * k
      ordinal := f.ordinal + 1 } (a + (1 - k)) (m + k) s := by
  obtain ⟨d1, d2, d3⟩ := g.dom_snoc p h name
  have hb := certBlock f.certSeed (domainID p f.ordinal) hc
  have hk : k ≤ 1 := by rcases hpol with h | h <;> omega
  have tP : Tab 0x80 (f.policySeed + 3 * k) (f.ordinal + 1) (f.policies ++ pol) (f.domainPolicies ++ dpol) := by
    rcases hpol with ⟨rfl, rfl, rfl, _⟩ | ⟨rfl, hb, _⟩
    · simpa using g.tabP.mono (Nat.le_succ _)
    · exact g.tabP.add hb hp h
  have oldP : ∀ p' o w, o < f.ordinal → IsAgg f.policies f.domainPolicies (domainID p' o) w → IsAgg (f.policies ++ pol) (f.domainPolicies ++ dpol) (domainID p' o) w := by
    intro p' o w ho hw
    rcases hpol with ⟨rfl, rfl, rfl, _⟩ | ⟨rfl, hb, _⟩
    · simpa using hw
    · exact g.tabP.agg_old hb hp h ho hw
  have newP : IsAgg (f.policies ++ pol) (f.domainPolicies ++ dpol) (domainID p f.ordinal) v := by
    rcases hpol with ⟨rfl, rfl, rfl, rfl⟩ | ⟨rfl, hb, _, rfl⟩
    · simpa using isAgg_none (g.tabP.no_link p h)
    · exact g.tabP.agg_new hb hp h
  have linkP : ∀ l ∈ dpol, l.1 = domainID p f.ordinal := by
    rcases hpol with ⟨rfl, rfl, rfl, _⟩ | ⟨rfl, hb, _⟩
    · simp
    · exact fun l hl => (hb.link l hl).1
  have lenp : pol.length = 3 * k ∧ dpol.length = k := by
    rcases hpol with ⟨rfl, rfl, rfl, _⟩ | ⟨rfl, hb, h1, _⟩
    · simp
    · refine ⟨?_, h1⟩
      have := congrArg List.length hb.ids
      simpa using this
  refine ⟨?_, ?_, ?_, g.tabC.add hb hc h, tP, d1, d2, d3, g.ndp, ?_, ?_, ?_, ?_, ?_, ?_, ?_, ?_, g.lenPay, ?_, ?_, ?_, ?_, ?_, ?_⟩
  · simp only [g.ord]; omega
  · simp only [g.cseed]; omega
  · simp only [g.pseed]; omega
  · intro r hr
    obtain ⟨x, h1, h2⟩ := g.pay r hr; exact ⟨x, List.mem_append_left _ h1, h2⟩
  · intro r hr
    rcases List.mem_append.1 hr with hr | hr
    · obtain ⟨x, hx, e, _⟩ := g.expdom r hr
      obtain ⟨p', o, ho, e'⟩ := g.dom x hx
      obtain ⟨h1, h2, h3⟩ := g.exp r hr
      rw [← e, e'] at h2 h3
      refine ⟨h1, ?_, ?_⟩
      · rw [← e, e']; exact g.tabC.agg_old hb hc h ho h2
      · rw [← e, e']; exact oldP p' o _ ho h3
    · rw [List.mem_singleton.1 hr]
      exact ⟨by simp, g.tabC.agg_new hb hc h, newP⟩
  · intro r hr
    rcases List.mem_append.1 hr with hr | hr
    · obtain ⟨x, h1, h2⟩ := g.expdom r hr; exact ⟨x, List.mem_append_left _ h1, h2⟩
    · rw [List.mem_singleton.1 hr]; exact ⟨_, List.mem_append_right _ (List.mem_singleton.2 rfl), rfl, hn⟩
  · intro x hx
    rcases List.mem_append.1 hx with hx | hx
    · rcases g.kind x hx with ⟨r, h1, h2⟩ | ⟨h1, h2, h3⟩
      · exact Or.inl ⟨r, List.mem_append_left _ h1, h2⟩
      · refine Or.inr ⟨h1, ?_, ?_⟩
        · intro l hl e
          rcases List.mem_append.1 hl with hl | hl
          · exact h2 l hl e
          · exact g.fresh p h x hx (e.symm.trans (hb.link l hl).1)
        · intro l hl e
          rcases List.mem_append.1 hl with hl | hl
          · exact h3 l hl e
          · exact g.fresh p h x hx (e.symm.trans (linkP l hl))
    · rw [List.mem_singleton.1 hx]
      exact Or.inl ⟨_, List.mem_append_right _ (List.mem_singleton.2 rfl), rfl⟩
  · simp only [List.length_append, g.lenC, buildCertRows, List.length_cons, List.length_nil]; omega
  · simp only [List.length_append, g.lenDC, buildCertRows, List.length_map, List.length_cons, List.length_nil]; omega
  · simp only [List.length_append, g.lenP, lenp.1]; omega
  · simp only [List.length_append, g.lenDP, lenp.2]
  · simp only [List.length_append, g.lenD, List.length_cons, List.length_nil]; omega
  · simp only [List.length_append, g.lenE, List.length_cons, List.length_nil]; omega
  · rw [List.map_append, List.nodup_append]
    refine ⟨g.nde, by simp, ?_⟩
    intro x hx y hy e
    obtain ⟨r, hr, rfl⟩ := List.mem_map.1 hx
    simp only [List.map_cons, List.map_nil, List.mem_singleton] at hy
    obtain ⟨z, hz, hz', _⟩ := g.expdom r hr
    exact g.fresh p h z hz (hz'.trans (e.trans hy))
  · rw [List.filter_append, List.length_append, g.polE]
    rcases hpol with ⟨rfl, _, _, rfl⟩ | ⟨rfl, _, _, rfl⟩ <;> simp
  · intro r hr w hw
    rcases List.mem_append.1 hr with hr | hr
    · exact g.polLen r hr w hw
    · rw [List.mem_singleton.1 hr] at hw
      dsimp only at hw
      rcases hpol with ⟨rfl, _, _, rfl⟩ | ⟨rfl, hb, _, rfl⟩
      · cases hw
      · cases hw
        unfold aggregateIDs
        rw [List.length_flatten, ((List.mergeSort_perm _ _).map List.length).sum_eq, hb.ids]
        simp [List.range_succ, linear_length]
  · simp only [List.filter_append, List.length_append, g.lenS]; simp [hn]

theorem Good.certOnly {f : Files} {a m s : Nat} (g : Good f a m s) (p : Nat) (h : f.ordinal + 1 < 2 ^ 64) (hc : f.certSeed + 4 < 2 ^ 64) (hp : f.policySeed + 3 < 2 ^ 64) (name : Bytes)
    (hn : staleName name = false) : Good (addCertOnly f (domainID p f.ordinal) name) (a + 1) m s := by
  have := g.active (k := 0) p h hc hp name hn [] [] none (Or.inl ⟨rfl, rfl, rfl, rfl⟩)
  simpa [addCertOnly, writeActiveDomain, buildCertExpectation, buildCertRows] using this

theorem Good.mixed {f : Files} {a m s : Nat} (g : Good f a m s) (p : Nat) (h : f.ordinal + 1 < 2 ^ 64) (hc : f.certSeed + 4 < 2 ^ 64) (hp : f.policySeed + 3 < 2 ^ 64) (name : Bytes)
    (hn : staleName name = false) : Good (addMixed f (domainID p f.ordinal) name) a (m + 1) s := by
  have := g.active (k := 1) p h hc hp name hn _ _ _ (Or.inr ⟨rfl, policyBlock f.policySeed _, rfl, rfl⟩)
  simpa [addMixed, writeActiveDomain, buildMixedExpectation, buildCertExpectation, buildCertRows, buildPolicyRows] using this

/-- One more domain of a kind. -/
def bump (k : Kind) (n a m s : Nat) : Nat × Nat × Nat :=
  match k with
  | .certOnly => (a + n, m, s)
  | .mixed => (a, m + n, s)
  | .stale => (a, m, s + n)

theorem Good.add {f : Files} {a m s : Nat} (g : Good f a m s) {p : Nat} (hp : p < 32) (k : Kind) (i : Nat) (hb : a + m + s < 2 ^ 60) :
    ∃ f', addDomain f k p i = some f' ∧ Good f' (bump k 1 a m s).1 (bump k 1 a m s).2.1 (bump k 1 a m s).2.2 := by
  unfold addDomain
  rw [makeDomainID_some hp]
  have h1 := g.ord
  have h2 := g.cseed
  have h3 := g.pseed
  refine ⟨_, rfl, ?_⟩
  cases k with
  | certOnly => exact g.certOnly p (by omega) (by omega) (by omega) _ rfl
  | mixed => exact g.mixed p (by omega) (by omega) (by omega) _ rfl
  | stale => exact g.stale p (by omega) _ rfl

theorem Good.many {f : Files} {a m s : Nat} (g : Good f a m s) {p : Nat} (hp : p < 32) (k : Kind) : ∀ n, a + m + s + n ≤ 2 ^ 60 →
    ∃ f', addMany f k p n = some f' ∧ Good f' (bump k n a m s).1 (bump k n a m s).2.1 (bump k n a m s).2.2
  | 0, _ => ⟨f, rfl, by cases k <;> exact g⟩
  | n + 1, hb => by
    obtain ⟨f', h1, h2⟩ := g.many hp k n (by omega)
    obtain ⟨f'', h3, h4⟩ := h2.add hp k n (by cases k <;> simp only [bump] <;> omega)
    refine ⟨f'', ?_, ?_⟩
    · unfold addMany at h1 ⊢
      rw [List.range_succ, List.foldlM_append, h1]
      simpa using h3
    · cases k <;> exact h4

/-- The rows written for the first `n` partitions. -/
theorem build_upto (p : Plan) (hb : p.certOnly.sum + p.mixed.sum + (p.stale.map Int.toNat).sum ≤ 2 ^ 60) : ∀ n ≤ 32,
    ∃ f, (List.range n).foldlM (fun f q => do
        let f ← addMany f .certOnly q (p.certOnly.getD q 0)
        let f ← addMany f .mixed q (p.mixed.getD q 0)
        addMany f .stale q (p.stale.getD q 0).toNat) noFiles = some f ∧
      Good f (p.certOnly.take n).sum (p.mixed.take n).sum ((p.stale.map Int.toNat).take n).sum
  | 0, _ => ⟨noFiles, rfl, by simpa using good_start⟩
  | n + 1, hn => by
    obtain ⟨f, h1, g⟩ := build_upto p hb n (by omega)
    have hsum : ∀ (l : List Nat), (l.take (n + 1)).sum = (l.take n).sum + l.getD n 0 := by
      intro l
      rw [List.take_add_one, List.sum_append, List.getD_eq_getElem?_getD]
      cases l[n]? <;> simp
    have hle : ∀ (l : List Nat) k, (l.take k).sum ≤ l.sum := by
      intro l k
      conv => rhs; rw [← List.take_append_drop k l, List.sum_append]
      omega
    have hst : (p.stale.map Int.toNat).getD n 0 = (p.stale.getD n 0).toNat := by
      rw [List.getD_eq_getElem?_getD, List.getD_eq_getElem?_getD, List.getElem?_map]
      cases p.stale[n]? <;> rfl
    have e1 := hsum p.certOnly
    have e2 := hsum p.mixed
    have e3 := hsum (p.stale.map Int.toNat)
    rw [hst] at e3
    have l1 := hle p.certOnly (n + 1)
    have l2 := hle p.mixed (n + 1)
    have l3 := hle (p.stale.map Int.toNat) (n + 1)
    obtain ⟨f1, a1, g1⟩ := g.many (p := n) (by omega) .certOnly (p.certOnly.getD n 0) (by omega)
    simp only [bump] at g1
    rw [← e1] at g1
    obtain ⟨f2, a2, g2⟩ := g1.many (p := n) (by omega) .mixed (p.mixed.getD n 0) (by omega)
    simp only [bump] at g2
    rw [← e2] at g2
    obtain ⟨f3, a3, g3⟩ := g2.many (p := n) (by omega) .stale (p.stale.getD n 0).toNat (by omega)
    simp only [bump] at g3
    rw [← e3] at g3
    refine ⟨f3, ?_, g3⟩
    rw [List.range_succ, List.foldlM_append, h1]
    simp only [List.foldlM_cons, List.foldlM_nil, Option.bind_eq_bind, Option.bind_some, a1, a2, a3, bind_pure]

theorem build_spec (p : Plan) (hc : p.certOnly.length = 32) (hm : p.mixed.length = 32) (hs : p.stale.length = 32)
    (hb : p.certOnly.sum + p.mixed.sum + (p.stale.map Int.toNat).sum ≤ 2 ^ 60) : ∃ f, build p = some f ∧ Good f p.certOnly.sum p.mixed.sum (p.stale.map Int.toNat).sum := by
  obtain ⟨f, h1, h2⟩ := build_upto p hb 32 le_rfl
  refine ⟨f, h1, ?_⟩
  rw [List.take_of_length_le (by omega), List.take_of_length_le (by omega), List.take_of_length_le (by rw [List.length_map]; omega)] at h2
  exact h2

/-- No row of the files is ignored when they are loaded. -/
theorem load_eq {f : Files} {a m s : Nat} (g : Good f a m s) : load f = ⟨f.certs, f.domains, f.domainCerts, f.policies, f.domainPolicies, f.payloads, f.dirty⟩ := by
  unfold load
  have h : (f.dirty.map Prod.fst).Nodup := by
    rw [g.dirty, List.map_map]
    exact g.ndd
  rw [insertIgnore_all Cert.id f.certs [] g.tabC.ndid, insertIgnore_all Prod.fst f.domains [] g.ndd, insertIgnore_all id f.domainCerts [] (by simpa using g.tabC.ndl),
    insertIgnore_all Cert.id f.policies [] g.tabP.ndid, insertIgnore_all id f.domainPolicies [] (by simpa using g.tabP.ndl), insertIgnore_all Payload.domain f.payloads [] g.ndp,
    insertIgnore_all Prod.fst f.dirty [] h]
  rfl

/-- The numbers of the three kinds of domains add up. -/
theorem stale_sum (p : Plan) (ht : p.total.length = 32) (hc : p.certOnly.length = 32) (hm : p.mixed.length = 32) (hs : p.stale.length = 32)
    (h : ∀ i < 32, p.stale.getD i 0 = p.total.getD i 0 - p.certOnly.getD i 0 - p.mixed.getD i 0 ∧ 0 ≤ p.stale.getD i 0) :
    (p.stale.map Int.toNat).sum + p.certOnly.sum + p.mixed.sum = p.total.sum := by
  have key : ∀ n ≤ 32, ((p.stale.map Int.toNat).take n).sum + (p.certOnly.take n).sum + (p.mixed.take n).sum = (p.total.take n).sum := by
    intro n
    induction n with
    | zero => intro _; simp
    | succ n ih =>
      intro hn
      have hsum : ∀ (l : List Nat), (l.take (n + 1)).sum = (l.take n).sum + l.getD n 0 := by
        intro l
        rw [List.take_add_one, List.sum_append, List.getD_eq_getElem?_getD]
        cases l[n]? <;> simp
      have hst : (p.stale.map Int.toNat).getD n 0 = (p.stale.getD n 0).toNat := by
        rw [List.getD_eq_getElem?_getD, List.getD_eq_getElem?_getD, List.getElem?_map]
        cases p.stale[n]? <;> rfl
      rw [hsum, hsum, hsum, hsum, hst]
      have := ih (by omega)
      obtain ⟨a, b⟩ := h n (by omega)
      omega
  have := key 32 le_rfl
  rwa [List.take_of_length_le (by rw [List.length_map]; omega), List.take_of_length_le (by omega), List.take_of_length_le (by omega), List.take_of_length_le (by omega)] at this

end Fpki.Bench
