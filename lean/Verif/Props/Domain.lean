import Verif.Model.Domain
import Mathlib.Data.List.Basic
import Mathlib.Data.List.Nodup
import Mathlib.Data.List.Perm.Subperm
import Mathlib.Data.List.Infix
import Mathlib.Data.List.TakeWhile

/-!
# C52: parsing of domain names; C53: affected domains cover all names
-/
namespace Fpki.Domain

/-- What is assumed of the public suffix list: the public suffix of a name consists of its last labels, at least one. -/
def IsPsl (psl : Psl) : Prop := ∀ d, ∃ pre suf, suf ≠ [] ∧ split d = pre ++ suf ∧ (psl d).1 = joinDots suf

/-! ## Splitting and joining -/

theorem split_ne_nil (s : Bytes) : split s ≠ [] := by
  cases s with
  | nil => simp [split]
  | cons c s =>
    unfold split
    split
    · simp
    · unfold consHead
      split <;> simp

theorem joinDots_cons {l : Bytes} {ls : List Bytes} (h : ls ≠ []) : joinDots (l :: ls) = l ++ dot :: joinDots ls := by
  cases ls with
  | nil => exact absurd rfl h
  | cons l' ls => rfl

theorem joinDots_split (s : Bytes) : joinDots (split s) = s := by
  induction s with
  | nil => rfl
  | cons c s ih =>
    unfold split
    split
    · rename_i h
      rw [joinDots_cons (split_ne_nil s), ih, h]
      rfl
    · cases hs : split s with
      | nil => exact absurd hs (split_ne_nil s)
      | cons l ls =>
        rw [hs] at ih
        unfold consHead
        cases ls with
        | nil => simpa [joinDots] using ih
        | cons l' ls => simpa [joinDots] using ih

theorem split_nodot {s : Bytes} : ∀ l ∈ split s, dot ∉ l := by
  induction s with
  | nil => simp [split]
  | cons c s ih =>
    intro l hl
    unfold split at hl
    split at hl
    · rcases List.mem_cons.1 hl with h | h
      · simp [h]
      · exact ih l h
    · rename_i hc
      cases hs : split s with
      | nil => exact absurd hs (split_ne_nil s)
      | cons l' ls =>
        rw [hs] at hl ih
        unfold consHead at hl
        rcases List.mem_cons.1 hl with h | h
        · rw [h]
          have := ih l' (by simp)
          simp [this, Ne.symm hc]
        · exact ih l (by simp [h])

theorem split_append {l : Bytes} (hl : dot ∉ l) (s : Bytes) : split (l ++ dot :: s) = l :: split s := by
  induction l with
  | nil => simp [split]
  | cons c l ih =>
    simp only [List.mem_cons, not_or] at hl
    rw [List.cons_append, split, if_neg (Ne.symm hl.1), ih hl.2]
    rfl

theorem split_single {l : Bytes} (hl : dot ∉ l) : split l = [l] := by
  induction l with
  | nil => rfl
  | cons c l ih =>
    simp only [List.mem_cons, not_or] at hl
    unfold split
    rw [if_neg (Ne.symm hl.1), ih hl.2]
    rfl

theorem split_joinDots : ∀ {ls : List Bytes}, ls ≠ [] → (∀ l ∈ ls, dot ∉ l) → split (joinDots ls) = ls
  | [], h, _ => absurd rfl h
  | [l], _, h => split_single (h l (by simp))
  | l :: l' :: ls, _, h => by
    rw [joinDots_cons (by simp), split_append (h l (by simp)), split_joinDots (by simp) (fun x hx => h x (by simp [hx]))]

theorem joinDots_append {a b : List Bytes} (ha : a ≠ []) (hb : b ≠ []) : joinDots (a ++ b) = joinDots a ++ dot :: joinDots b := by
  induction a with
  | nil => exact absurd rfl ha
  | cons l a ih =>
    cases a with
    | nil => rw [List.singleton_append, joinDots_cons hb]; rfl
    | cons l' a =>
      rw [List.cons_append, joinDots_cons (by simp), ih (by simp), joinDots_cons (l := l) (ls := l' :: a) (by simp)]
      simp

/-! ## Valid names -/

theorem correctLabel_ne_nil {l : Bytes} (h : correctLabel l = true) : l ≠ [] := by
  rintro rfl
  revert h
  decide

theorem labels_removeWildCardAndWWW (d : Bytes) : ∀ l ∈ split (removeWildCardAndWWW d), l ∈ split d := by
  have h1 : ∀ (x : Bytes), ∀ l ∈ split (if x.length > 2 ∧ x.take 2 = [star, dot] then x.drop 2 else x), l ∈ split x := by
    intro x l hl
    split at hl
    · rename_i h
      have : x = [star] ++ dot :: x.drop 2 := by
        conv_lhs => rw [← List.take_append_drop 2 x, h.2]
        rfl
      rw [this, split_append (by decide)]
      exact List.mem_cons_of_mem _ hl
    · exact hl
  have h2 : ∀ (x : Bytes), ∀ l ∈ split (if x.length > 4 ∧ x.take 4 = asc "www." then x.drop 4 else x), l ∈ split x := by
    intro x l hl
    split at hl
    · rename_i h
      have : x = asc "www" ++ dot :: x.drop 4 := by
        conv_lhs => rw [← List.take_append_drop 4 x, h.2]
        rfl
      rw [this, split_append (by decide)]
      exact List.mem_cons_of_mem _ hl
    · exact hl
  intro l hl
  exact h1 d l (h2 _ l hl)

theorem valid_labels {psl : Psl} {d : Bytes} (h : isValidDomain psl d = true) : ∀ l ∈ split (removeWildCardAndWWW d), l ≠ [] ∧ correctLabel l = true := by
  intro l hl
  unfold isValidDomain at h
  simp only [Bool.and_eq_true, List.all_eq_true] at h
  have := h.2 l (labels_removeWildCardAndWWW d l hl)
  exact ⟨correctLabel_ne_nil this, this⟩

/-! ## Splitting off the e2LD -/

theorem afterLastDot_spec {a l : Bytes} (hl : dot ∉ l) : afterLastDot (a ++ dot :: l) = a.length + 1 := by
  unfold afterLastDot
  have : ((a ++ dot :: l).reverse.takeWhile (fun c => c ≠ dot)) = l.reverse := by
    rw [List.reverse_append, List.reverse_cons, List.append_assoc, List.takeWhile_append_of_pos]
    · simp
    · intro x hx
      simp only [decide_eq_true_eq]
      rintro rfl
      exact hl (List.mem_reverse.1 hx)
  rw [this]
  simp
  omega

theorem afterLastDot_nodot {l : Bytes} (hl : dot ∉ l) : afterLastDot l = 0 := by
  unfold afterLastDot
  have : (l.reverse.takeWhile (fun c => c ≠ dot)) = l.reverse := by
    rw [List.takeWhile_eq_self_iff]
    intro x hx
    simp only [decide_eq_true_eq]
    rintro rfl
    exact hl (List.mem_reverse.1 hx)
  rw [this]
  simp

theorem trimSuffix_append (a t : Bytes) : trimSuffix (a ++ t) t = a := by
  unfold trimSuffix
  rw [if_pos (by rw [List.isSuffixOf_iff_suffix]; exact List.suffix_append _ _)]
  simp

theorem joinDots_length {a : List Bytes} {l : Bytes} (h : l ∈ a) : l.length ≤ (joinDots a).length := by
  induction a with
  | nil => cases h
  | cons x a ih =>
    by_cases ha : a = []
    · subst ha
      simp at h
      rw [h]
      exact Nat.le_refl _
    · rw [joinDots_cons ha]
      rcases List.mem_cons.1 h with h | h
      · rw [h]; simp
      · have := ih h
        simp
        omega

/-- What the split returns: the labels before the e2LD, and the e2LD. -/
theorem splitE2LD_spec {psl : Psl} (hp : IsPsl psl) {d : Bytes} (hd : ∀ l ∈ split d, l ≠ []) {r : List Bytes} (hr : splitE2LD psl d = some r) :
    ∃ pre e, split d = pre ++ e ∧ e ≠ [] ∧ r = pre ++ [joinDots e] ∧ ((psl d).2 = true → ∃ x suf, e = x :: suf ∧ suf ≠ [] ∧ joinDots suf = (psl d).1) ∧
      ((psl d).2 = false → pre = []) := by
  unfold splitE2LD at hr
  by_cases hi : (psl d).2 = false
  · rw [if_pos hi] at hr
    cases hr
    exact ⟨[], split d, rfl, split_ne_nil d, by simp [joinDots_split], by simp [hi], fun _ => rfl⟩
  · rw [if_neg hi] at hr
    obtain ⟨pre, suf, h1, h2, h3⟩ := hp d
    have hjd : d = joinDots (pre ++ suf) := by rw [← h2, joinDots_split]
    cases he : effectiveTLDPlusOne psl d with
    | none => rw [he] at hr; cases hr
    | some e =>
      rw [he] at hr
      simp only [Option.some.injEq] at hr
      unfold effectiveTLDPlusOne at he
      split at he
      · cases he
      · split at he
        · cases he
        · rename_i hlen
          rw [h3] at hlen
          by_cases hpre : pre = []
          · subst hpre
            rw [List.nil_append] at hjd
            rw [hjd] at hlen
            exact absurd (Nat.le_refl _) hlen
          · obtain ⟨p, x, rfl⟩ : ∃ p x, pre = p ++ [x] := ⟨pre.dropLast, pre.getLast hpre, (List.dropLast_append_getLast hpre).symm⟩
            have hxdot : dot ∉ x := split_nodot (s := d) x (by rw [h2]; simp)
            rw [List.append_assoc, List.singleton_append] at hjd
            have hxs : joinDots (x :: suf) = x ++ dot :: joinDots suf := joinDots_cons h1
            have hee : e = x ++ dot :: joinDots suf := by
              dsimp only at he
              rw [h3] at he
              by_cases hpe : p = []
              · subst hpe
                rw [List.nil_append, hxs] at hjd
                rw [hjd] at he
                have hi2 : (x ++ dot :: joinDots suf).length - (joinDots suf).length - 1 = x.length := by simp; omega
                rw [hi2] at he
                split at he
                · cases he
                · rw [List.take_left, afterLastDot_nodot hxdot] at he
                  cases he
                  rfl
              · rw [joinDots_append hpe (by simp), hxs] at hjd
                have hjd' : d = (joinDots p ++ dot :: x) ++ dot :: joinDots suf := by rw [hjd]; simp
                rw [hjd'] at he
                have hi2 : ((joinDots p ++ dot :: x) ++ dot :: joinDots suf).length - (joinDots suf).length - 1 = (joinDots p ++ dot :: x).length := by
                  simp
                  omega
                rw [hi2] at he
                split at he
                · cases he
                · rw [List.take_left, afterLastDot_spec hxdot] at he
                  cases he
                  rw [List.append_assoc, List.cons_append]
                  have : joinDots p ++ dot :: (x ++ dot :: joinDots suf) = (joinDots p ++ [dot]) ++ (x ++ dot :: joinDots suf) := by simp
                  rw [this]
                  rw [show (joinDots p).length + 1 = (joinDots p ++ [dot]).length by simp, List.drop_left]
            refine ⟨p, x :: suf, by rw [h2]; simp, by simp, ?_, fun _ => ⟨x, suf, rfl, h1, h3.symm⟩, fun h => absurd h hi⟩
            rw [← hr, hxs, hee]
            congr 1
            by_cases hpe : p = []
            · subst hpe
              rw [List.nil_append, hxs] at hjd
              have : trimSuffix d (x ++ dot :: joinDots suf) = [] := by
                rw [hjd]
                exact trimSuffix_append [] _
              rw [this]
              decide
            · rw [joinDots_append hpe (by simp), hxs] at hjd
              have hjd' : d = (joinDots p ++ [dot]) ++ (x ++ dot :: joinDots suf) := by rw [hjd]; simp
              rw [hjd', trimSuffix_append, trimSuffix_append]
              have hpl : ∀ l ∈ p, dot ∉ l ∧ l ≠ [] := fun l hl => ⟨split_nodot (s := d) l (by rw [h2]; simp [hl]), hd l (by rw [h2]; simp [hl])⟩
              have hpn : joinDots p ≠ [] := by
                intro hn
                cases p with
                | nil => exact hpe rfl
                | cons l p =>
                  have h4 := joinDots_length (a := l :: p) (l := l) (by simp)
                  rw [hn] at h4
                  exact (hpl l (by simp)).2 (List.length_eq_zero_iff.1 (by simpa using h4))
              rw [if_pos hpn, split_joinDots hpe (fun l hl => (hpl l hl).1)]

/-- Exactly the names whose public suffix is managed by ICANN and that are nothing but this suffix cannot be split. -/
theorem splitE2LD_isSome {psl : Psl} (hp : IsPsl psl) {d : Bytes} (hd : ∀ l ∈ split d, l ≠ []) :
    (splitE2LD psl d).isSome = true ↔ ((psl d).2 = true → (psl d).1 ≠ d) := by
  unfold splitE2LD
  by_cases hi : (psl d).2 = false
  · rw [if_pos hi]
    simp [hi]
  · rw [if_neg hi]
    have hi' : (psl d).2 = true := by simpa using hi
    obtain ⟨pre, suf, h1, h2, h3⟩ := hp d
    have hjd : d = joinDots (pre ++ suf) := by rw [← h2, joinDots_split]
    have key : (effectiveTLDPlusOne psl d).isSome = true ↔ (psl d).1 ≠ d := by
      unfold effectiveTLDPlusOne
      rw [if_neg (by simpa using fun h => hd [] h rfl)]
      by_cases hpre : pre = []
      · subst hpre
        rw [List.nil_append] at hjd
        have : (psl d).1 = d := by rw [h3, ← hjd]
        rw [if_pos (by rw [this])]
        simp [this]
      · rw [joinDots_append hpre h1] at hjd
        have hne : (psl d).1.length < d.length := by
          rw [h3]
          conv_rhs => rw [hjd]
          simp
          omega
        rw [if_neg (by omega)]
        have hidx : d[d.length - (psl d).1.length - 1]? = some dot := by
          rw [h3]
          generalize joinDots suf = t at *
          rw [hjd]
          have : (joinDots pre ++ dot :: t).length - t.length - 1 = (joinDots pre).length := by simp; omega
          rw [this]
          simp
        dsimp only
        rw [if_neg (by rw [hidx]; simp)]
        simp only [Option.isSome_some, true_iff]
        intro h
        rw [h] at hne
        exact absurd hne (by omega)
    rw [show ((psl d).2 = true → (psl d).1 ≠ d) ↔ (psl d).1 ≠ d from ⟨fun h => h hi', fun h _ => h⟩, ← key]
    cases effectiveTLDPlusOne psl d <;> simp

/-! ## C52 -/

theorem parents_spec : ∀ (rest : List Bytes) (e : List Bytes), e ≠ [] → parents rest (joinDots e) =
    (List.range rest.length).map (fun k => joinDots ((rest.take (k + 1)).reverse ++ e))
  | [], _, _ => rfl
  | l :: rest, e, he => by
    unfold parents
    rw [← joinDots_cons he, parents_spec rest (l :: e) (by simp)]
    rw [List.length_cons, List.range_succ_eq_map, List.map_cons, List.map_map]
    congr 1
    apply List.map_congr_left
    intro k _
    simp

/-- The result of `ParseDomainName`: with `name` the given name without `*.` and `www.`, it is the e2LD of `name` (the last labels `e`), then one label more each time, up to
`name`. The e2LD is the public suffix and one more label if the suffix is managed by ICANN, and otherwise the whole name. -/
theorem C52_parse {psl : Psl} (hp : IsPsl psl) {d : Bytes} {out : List Bytes} (h : parseDomainName psl d = some out) :
    ∃ pre e, split (removeWildCardAndWWW d) = pre ++ e ∧ e ≠ [] ∧
      out = (List.range (pre.length + 1)).map (fun k => joinDots (pre.drop (pre.length - k) ++ e)) ∧
      ((psl (removeWildCardAndWWW d)).2 = true → ∃ x suf, e = x :: suf ∧ joinDots suf = (psl (removeWildCardAndWWW d)).1) ∧
      ((psl (removeWildCardAndWWW d)).2 = false → pre = []) := by
  unfold parseDomainName at h
  split at h
  · cases h
  · rename_i hv
    have hv' : isValidDomain psl d = true := by simpa using hv
    cases hs : splitE2LD psl (removeWildCardAndWWW d) with
    | none => rw [hs] at h; cases h
    | some r =>
      rw [hs] at h
      obtain ⟨pre, e, h1, h2, h3, h4, h5⟩ := splitE2LD_spec hp (fun l hl => (valid_labels hv' l hl).1) hs
      refine ⟨pre, e, h1, h2, ?_, fun hi => (h4 hi).elim (fun x hx => hx.elim (fun suf hs => ⟨x, suf, hs.1, hs.2.2⟩)), h5⟩
      subst h3
      simp only [List.reverse_append, List.reverse_cons, List.reverse_nil, List.nil_append, List.singleton_append] at h
      cases h
      rw [parents_spec _ _ h2, List.length_reverse, List.range_succ_eq_map, List.map_cons, List.map_map]
      congr 1
      · simp
      · apply List.map_congr_left
        intro k hk
        simp only [Function.comp]
        rw [List.take_reverse, List.reverse_reverse]

/-- The last element is the name itself, without `*.` and `www.` -/
theorem C52_last {psl : Psl} (hp : IsPsl psl) {d : Bytes} {out : List Bytes} (h : parseDomainName psl d = some out) :
    out.getLast? = some (removeWildCardAndWWW d) := by
  obtain ⟨pre, e, h1, _, h3, _⟩ := C52_parse hp h
  rw [h3, List.range_succ, List.map_append]
  simp [← h1, joinDots_split]

/-- Each element is the one before with one label in front. -/
theorem C52_suffix_chain {psl : Psl} (hp : IsPsl psl) {d : Bytes} {out : List Bytes} (h : parseDomainName psl d = some out) (i : Nat) (a b : Bytes)
    (ha : out[i]? = some a) (hb : out[i + 1]? = some b) : ∃ label, label ≠ [] ∧ dot ∉ label ∧ b = label ++ dot :: a := by
  have hv : isValidDomain psl d = true := by
    unfold parseDomainName at h
    split at h
    · cases h
    · rename_i hv; simpa using hv
  obtain ⟨pre, e, h1, h2, h3, _⟩ := C52_parse hp h
  subst h3
  have hi : i + 1 < pre.length + 1 := by
    by_contra hn
    rw [List.getElem?_eq_none (by simp; omega)] at hb
    cases hb
  rw [List.getElem?_map, List.getElem?_range (by omega)] at ha hb
  simp only [Option.map_some, Option.some.injEq] at ha hb
  have hlt : pre.length - (i + 1) < pre.length := by omega
  rw [List.drop_eq_getElem_cons hlt, show pre.length - (i + 1) + 1 = pre.length - i by omega, List.cons_append, joinDots_cons (by simp [h2]), ha] at hb
  have hm : pre[pre.length - (i + 1)] ∈ split (removeWildCardAndWWW d) := by
    rw [h1]
    exact List.mem_append_left _ (List.getElem_mem _)
  exact ⟨_, (valid_labels hv _ hm).1, split_nodot _ hm, hb.symm⟩

/-- Which names are accepted: the valid ones that, without `*.` and `www.`, are not just a public suffix managed by ICANN. -/
theorem C52_accepts {psl : Psl} (hp : IsPsl psl) (d : Bytes) :
    (parseDomainName psl d).isSome = true ↔ isValidDomain psl d = true ∧
      ((psl (removeWildCardAndWWW d)).2 = true → (psl (removeWildCardAndWWW d)).1 ≠ removeWildCardAndWWW d) := by
  unfold parseDomainName
  cases hv : isValidDomain psl d with
  | false => simp
  | true =>
    simp only [Bool.not_true, Bool.false_eq_true, if_false, true_and]
    rw [← splitE2LD_isSome hp (fun l hl => (valid_labels hv l hl).1)]
    cases hs : splitE2LD psl (removeWildCardAndWWW d) with
    | none => simp
    | some r =>
      obtain ⟨pre, e, _, _, h3, _⟩ := splitE2LD_spec hp (fun l hl => (valid_labels hv l hl).1) hs
      subst h3
      simp

/-- What a valid name is: at most 255 bytes, a wildcard only as the whole first label, not a public suffix managed by ICANN, and labels of letters, digits and inner hyphens. -/
theorem C52_valid {psl : Psl} {d : Bytes} (h : isValidDomain psl d = true) :
    d.length ≤ 255 ∧ ((psl d).2 = true → (psl d).1 ≠ d) ∧ (∀ l ∈ split d, l ≠ [] ∧ l.length ≤ 63 ∧ ∀ c ∈ l, alnum c = true ∨ c = 45 ∨ l = [star]) ∧
    (∀ l ∈ (split d).tail, star ∉ l) := by
  unfold isValidDomain at h
  simp only [Bool.and_eq_true, List.all_eq_true, Bool.not_eq_true', decide_eq_true_eq] at h
  obtain ⟨⟨⟨h1, h2⟩, h3⟩, h4⟩ := h
  refine ⟨h2, fun hi he => ?_, fun l hl => ?_, ?_⟩
  · rw [hi, he] at h3
    simp at h3
  · have h5 := h4 l hl
    refine ⟨correctLabel_ne_nil h5, ?_⟩
    unfold correctLabel at h5
    simp only [Bool.or_eq_true, beq_iff_eq, Bool.and_eq_true, decide_eq_true_eq, List.all_eq_true] at h5
    rcases h5 with h5 | h5
    · subst h5
      exact ⟨by decide, fun c hc => Or.inr (Or.inr rfl)⟩
    · exact ⟨h5.1.1.1, fun c hc => (h5.2 c hc).imp_right Or.inl⟩
  · intro l hl hs
    unfold viableDomain at h1
    have hno : ∀ (x : Bytes), star ∉ x → ∀ l ∈ split x, star ∉ l := by
      intro x hx l hl hs
      have : star ∈ joinDots (split x) := by
        generalize split x = ls at hl
        induction ls with
        | nil => cases hl
        | cons y ls ih =>
          by_cases hls : ls = []
          · subst hls
            simp at hl
            subst hl
            exact hs
          · rw [joinDots_cons hls]
            rcases List.mem_cons.1 hl with h | h
            · subst h; simp [hs]
            · simp [ih h]
      rw [joinDots_split] at this
      exact hx this
    split at h1
    · rename_i ht
      have : d = [star] ++ dot :: d.drop 2 := by
        conv_lhs => rw [← List.take_append_drop 2 d, ht]
        rfl
      rw [this, split_append (by decide)] at hl
      exact hno (d.drop 2) (by simpa using h1) l hl hs
    · exact hno d (by simpa using h1) l (List.mem_of_mem_tail hl) hs

/-- A public suffix list for the examples: the last label, managed by ICANN if it is `com`. -/
def exPsl : Psl := fun d => ((split d).getLast (split_ne_nil d), (split d).getLast (split_ne_nil d) == asc "com")

theorem exPsl_isPsl : IsPsl exPsl := by
  intro d
  exact ⟨(split d).dropLast, [(split d).getLast (split_ne_nil d)], by simp, (List.dropLast_append_getLast _).symm, rfl⟩

example : parseDomainName exPsl (asc "*.www.a.b-c.example.com") = some [asc "example.com", asc "b-c.example.com", asc "a.b-c.example.com"] := by decide +kernel
example : parseDomainName exPsl (asc "a.b.local") = some [asc "a.b.local"] := by decide +kernel

/-- `www.com` is a valid name, but cannot be looked up: without `www.` it is a public suffix. -/
theorem C52_www_violated : isValidDomain exPsl (asc "www.com") = true ∧ parseDomainName exPsl (asc "www.com") = none := by decide +kernel

/-! ## C53 -/

/-- `ExtractAffectedDomains` returns `out`: for some order of the two maps. -/
def Extracts (psl : Psl) (names out : List Bytes) : Prop := ∃ unique, IsUnique psl names unique ∧ out.Perm (extractUnique psl unique)

/-- Labels, each followed by a dot. -/
def dotted (c : List Bytes) : Bytes := c.flatMap (fun l => l ++ [dot])

theorem dotted_joinDots {c e : List Bytes} (he : e ≠ []) : dotted c ++ joinDots e = joinDots (c ++ e) := by
  induction c with
  | nil => rfl
  | cons l c ih =>
    rw [List.cons_append, joinDots_cons (by simp [he]), ← ih]
    simp [dotted]

theorem shortest_aux : ∀ (names : List (List Bytes)) (m : Nat), let r := names.foldl (fun m n => if n.length < m then n.length else m) m
    r ≤ m ∧ (∀ n ∈ names, r ≤ n.length) ∧ (r = m ∨ ∃ n ∈ names, r = n.length)
  | [], m => ⟨Nat.le_refl _, by simp, Or.inl rfl⟩
  | n :: names, m => by
    obtain ⟨h1, h2, h3⟩ := shortest_aux names (if n.length < m then n.length else m)
    simp only [List.foldl_cons]
    by_cases hn : n.length < m
    · rw [if_pos hn] at h1 h2 h3 ⊢
      refine ⟨by omega, ?_, ?_⟩
      · intro x hx
        rcases List.mem_cons.1 hx with h | h
        · rw [h]; exact h1
        · exact h2 x h
      · rcases h3 with h3 | ⟨x, hx, h3⟩
        · exact Or.inr ⟨n, by simp, h3⟩
        · exact Or.inr ⟨x, by simp [hx], h3⟩
    · rw [if_neg hn] at h1 h2 h3 ⊢
      refine ⟨h1, ?_, ?_⟩
      · intro x hx
        rcases List.mem_cons.1 hx with h | h
        · rw [h]; omega
        · exact h2 x h
      · rcases h3 with h3 | ⟨x, hx, h3⟩
        · exact Or.inl h3
        · exact Or.inr ⟨x, by simp [hx], h3⟩

theorem shortest_spec {names : List (List Bytes)} (hn : names ≠ []) : (∀ n ∈ names, shortestLength names ≤ n.length) ∧ ∃ n ∈ names, shortestLength names = n.length := by
  cases names with
  | nil => exact absurd rfl hn
  | cons x names =>
    obtain ⟨_, h2, h3⟩ := shortest_aux (x :: names) x.length
    refine ⟨h2, ?_⟩
    rcases h3 with h3 | h3
    · exact ⟨x, by simp, h3⟩
    · exact h3

theorem suffix_next {c n : List Bytes} (h : c <:+ n) (hl : c.length < n.length) : n.getD (n.length - 1 - c.length) [] :: c <:+ n := by
  obtain ⟨t, rfl⟩ := h
  have ht : t ≠ [] := by
    rintro rfl
    simp at hl
  obtain ⟨t', x, rfl⟩ : ∃ t' x, t = t' ++ [x] := ⟨t.dropLast, t.getLast ht, (List.dropLast_append_getLast ht).symm⟩
  refine ⟨t', ?_⟩
  have : (t' ++ [x] ++ c).length - 1 - c.length = t'.length := by simp
  rw [this]
  simp

theorem suffixLoop_spec {names : List (List Bytes)} (hn : names ≠ []) : ∀ (k i : Nat) (c : List Bytes), i + k = shortestLength names → c.length = i → (∀ n ∈ names, c <:+ n) →
    ∃ c', suffixLoop names k i (dotted c) = dotted c' ∧ (∀ n ∈ names, c' <:+ n) ∧ ∀ x, (∀ n ∈ names, x <:+ n) → x <:+ c'
  | 0, i, c, hk, hc, hs => by
    obtain ⟨_, m, h1, h2⟩ := shortest_spec hn
    refine ⟨c, rfl, hs, fun x hx => ?_⟩
    have : c = m := (hs m h1).eq_of_length (by omega)
    rw [this]
    exact hx m h1
  | k + 1, i, c, hk, hc, hs => by
    unfold suffixLoop
    dsimp only
    have hlen : ∀ n ∈ names, c.length < n.length := fun n h => by
      have := (shortest_spec hn).1 n h
      omega
    cases names with
    | nil => exact absurd rfl hn
    | cons m names =>
      simp only [List.headD_cons]
      by_cases hany : differs (m :: names) i (m.getD (m.length - 1 - i) []) = true
      · simp only [hany, if_true]
        refine ⟨c, rfl, hs, fun x hx => ?_⟩
        unfold differs at hany
        rw [List.any_eq_true] at hany
        obtain ⟨n, h1, h2⟩ := hany
        by_contra hxc
        have hxl : c.length < x.length := by
          by_contra hle
          exact hxc (List.suffix_of_suffix_length_le (hx m (by simp)) (hs m (by simp)) (by omega))
        have hcx : c <:+ x := List.suffix_of_suffix_length_le (hs m (by simp)) (hx m (by simp)) (by omega)
        have hy := suffix_next hcx hxl
        have e1 : m.getD (m.length - 1 - c.length) [] :: c = x.getD (x.length - 1 - c.length) [] :: c := by
          have a := suffix_next (hs m (by simp)) (hlen m (by simp))
          exact (List.suffix_of_suffix_length_le a (hy.trans (hx m (by simp))) (by simp)).eq_of_length (by simp)
        have e2 : n.getD (n.length - 1 - c.length) [] :: c = x.getD (x.length - 1 - c.length) [] :: c := by
          have a := suffix_next (hs n h1) (hlen n h1)
          exact (List.suffix_of_suffix_length_le a (hy.trans (hx n h1)) (by simp)).eq_of_length (by simp)
        rw [hc] at e1 e2
        have := (List.cons.inj e2).1.trans (List.cons.inj e1).1.symm
        exact (of_decide_eq_true h2) this
      · simp only [hany]
        have hall : ∀ n ∈ m :: names, n.getD (n.length - 1 - i) [] = m.getD (m.length - 1 - i) [] := by
          intro n h
          by_contra hne
          apply hany
          unfold differs
          rw [List.any_eq_true]
          exact ⟨n, h, by simpa using hne⟩
        have := suffixLoop_spec hn k (i + 1) (m.getD (m.length - 1 - i) [] :: c) (by omega) (by simp [hc]) (by
          intro n h
          have := suffix_next (hs n h) (hlen n h)
          rw [hc, hall n h] at this
          exact this)
        simpa [dotted] using this

theorem longest_spec {names : List (List Bytes)} (hn : names ≠ []) : ∃ c, findLongestSuffix names = dotted c ∧ (∀ n ∈ names, c <:+ n) ∧
    ∀ x, (∀ n ∈ names, x <:+ n) → x <:+ c :=
  suffixLoop_spec hn _ 0 [] (Nat.zero_add _) rfl (fun n _ => List.nil_suffix)

/-- The pairs of a group's key and its prefixes. -/
theorem mem_addGroup (e : Bytes) (p : List Bytes) : ∀ (gs : List (Bytes × List (List Bytes))), (gs.map Prod.fst).Nodup →
    ((addGroup e p gs).map Prod.fst).Nodup ∧ (∀ x, x ∈ (addGroup e p gs).map Prod.fst ↔ x = e ∨ x ∈ gs.map Prod.fst) ∧
    (∀ g ∈ addGroup e p gs, ∀ q, q ∈ g.2 ↔ (g.1 = e ∧ q = p) ∨ ∃ g' ∈ gs, g'.1 = g.1 ∧ q ∈ g'.2) ∧ (addGroup e p gs).length ≤ gs.length + 1
  | [], _ => by simp [addGroup]
  | g :: gs, hn => by
    rw [List.map_cons, List.nodup_cons] at hn
    unfold addGroup
    by_cases h : g.1 = e
    · rw [if_pos h]
      refine ⟨by rw [List.map_cons, List.nodup_cons, ← h]; exact hn, by simp [h], ?_, by simp⟩
      intro g' hg' q
      rcases List.mem_cons.1 hg' with hg' | hg'
      · subst hg'
        have hnone : ∀ x ∈ gs, ¬ x.1 = e := fun x hx he => hn.1 (by rw [h, ← he]; exact List.mem_map_of_mem hx)
        simp only [List.mem_append, List.mem_cons, List.not_mem_nil, or_false, exists_eq_or_imp, true_and, h]
        constructor
        · rintro (hq | hq)
          · exact Or.inr (Or.inl hq)
          · exact Or.inl hq
        · rintro (hq | hq | ⟨x, hx, hxe, _⟩)
          · exact Or.inr hq
          · exact Or.inl hq
          · exact absurd hxe (hnone x hx)
      · have hne : ¬ g'.1 = e := fun he => hn.1 (by rw [h, ← he]; exact List.mem_map_of_mem hg')
        constructor
        · intro hq
          exact Or.inr ⟨g', by simp [hg'], rfl, hq⟩
        · rintro (⟨hq, _⟩ | ⟨x, hx, hxe, hq⟩)
          · exact absurd hq hne
          · rcases List.mem_cons.1 hx with hx | hx
            · subst hx
              exact absurd (hxe.symm.trans h) hne
            · have : x = g' := List.inj_on_of_nodup_map hn.2 hx hg' hxe
              exact this ▸ hq
    · rw [if_neg h]
      obtain ⟨i1, i2, i3, i4⟩ := mem_addGroup e p gs hn.2
      refine ⟨?_, ?_, ?_, by simp only [List.length_cons]; omega⟩
      · rw [List.map_cons, List.nodup_cons]
        refine ⟨fun hm => ?_, i1⟩
        rcases (i2 g.1).1 hm with hm | hm
        · exact h hm
        · exact hn.1 hm
      · intro x
        rw [List.map_cons, List.mem_cons, i2, List.map_cons, List.mem_cons]
        constructor
        · rintro (hx | hx | hx)
          · exact Or.inr (Or.inl hx)
          · exact Or.inl hx
          · exact Or.inr (Or.inr hx)
        · rintro (hx | hx | hx)
          · exact Or.inr (Or.inl hx)
          · exact Or.inl hx
          · exact Or.inr (Or.inr hx)
      · intro g' hg0 q
        rcases List.mem_cons.1 hg0 with hg' | hg'
        · subst hg'
          constructor
          · intro hq
            exact Or.inr ⟨g', by simp, rfl, hq⟩
          · rintro (⟨hq, _⟩ | ⟨x, hx, hxe, hq⟩)
            · exact absurd hq h
            · rcases List.mem_cons.1 hx with hx | hx
              · exact hx ▸ hq
              · exact absurd (by rw [← hxe]; exact List.mem_map_of_mem hx) hn.1
        · rw [i3 g' hg' q]
          constructor
          · rintro (hq | ⟨x, hx, hxe, hq⟩)
            · exact Or.inl hq
            · exact Or.inr ⟨x, by simp [hx], hxe, hq⟩
          · rintro (hq | ⟨x, hx, hxe, hq⟩)
            · exact Or.inl hq
            · rcases List.mem_cons.1 hx with hx | hx
              · subst hx
                rcases (i2 x.1).1 (by rw [hxe]; exact List.mem_map_of_mem hg') with hm | hm
                · exact absurd hm h
                · exact absurd hm hn.1
              · exact Or.inr ⟨x, hx, hxe, hq⟩

/-- One name added to the groups. -/
def groupStep (psl : Psl) (gs : List (Bytes × List (List Bytes))) (d : Bytes) : List (Bytes × List (List Bytes)) :=
  match splitE2LD psl d with
  | none => gs
  | some s => addGroup (s.getLast?.getD []) s.dropLast gs

/-- The groups hold the prefixes of the names that can be split, by e2LD. -/
theorem groups_spec {psl : Psl} : ∀ (names : List Bytes), ((groups psl names).map Prod.fst).Nodup ∧ (groups psl names).length ≤ names.length ∧
    (∀ g ∈ groups psl names, g.2 ≠ [] ∧ ∀ q, q ∈ g.2 ↔ ∃ d ∈ names, splitE2LD psl d = some (q ++ [g.1])) ∧
    (∀ d ∈ names, ∀ q e, splitE2LD psl d = some (q ++ [e]) → ∃ g ∈ groups psl names, g.1 = e ∧ q ∈ g.2) := by
  intro names
  have hg : groups psl names = names.foldl (groupStep psl) [] := rfl
  rw [hg]
  induction names using List.reverseRecOn with
  | nil => simp
  | append_singleton names d ih =>
    obtain ⟨h1, h2, h3, h4⟩ := ih rfl
    rw [List.foldl_append, List.foldl_cons, List.foldl_nil]
    generalize names.foldl (groupStep psl) [] = gs at *
    unfold groupStep
    cases hs : splitE2LD psl d with
    | none =>
      dsimp only
      refine ⟨h1, by simp; omega, ?_, ?_⟩
      · intro g hgm
        refine ⟨(h3 g hgm).1, fun q => ?_⟩
        rw [(h3 g hgm).2 q]
        constructor
        · rintro ⟨d', h5, h6⟩
          exact ⟨d', by simp [h5], h6⟩
        · rintro ⟨d', h5, h6⟩
          rcases List.mem_append.1 h5 with h5 | h5
          · exact ⟨d', h5, h6⟩
          · rw [List.mem_singleton.1 h5, hs] at h6
            cases h6
      · intro d' h5 q e h6
        rcases List.mem_append.1 h5 with h5 | h5
        · exact h4 d' h5 q e h6
        · rw [List.mem_singleton.1 h5, hs] at h6
          cases h6
    | some s =>
      dsimp only
      obtain ⟨i1, i2, i3, i4⟩ := mem_addGroup (s.getLast?.getD []) s.dropLast gs h1
      have hsne : s ≠ [] := by
        unfold splitE2LD at hs
        split at hs
        · cases hs; simp
        · split at hs
          · cases hs
          · cases hs; simp
      have hse : s = s.dropLast ++ [s.getLast?.getD []] := by
        rw [List.getLast?_eq_getLast_of_ne_nil hsne]
        exact (List.dropLast_append_getLast hsne).symm
      generalize s.getLast?.getD [] = e0 at *
      generalize s.dropLast = p0 at *
      subst hse
      refine ⟨i1, by simp; omega, ?_, ?_⟩
      · intro g hgm
        have key : ∀ q, q ∈ g.2 ↔ ∃ d' ∈ names ++ [d], splitE2LD psl d' = some (q ++ [g.1]) := by
          intro q
          rw [i3 g hgm q]
          constructor
          · rintro (⟨h5, h6⟩ | ⟨g', h5, h6, h7⟩)
            · exact ⟨d, by simp, by rw [hs, h5, h6]⟩
            · obtain ⟨d', h8, h9⟩ := ((h3 g' h5).2 q).1 h7
              exact ⟨d', by simp [h8], by rw [h9, h6]⟩
          · rintro ⟨d', h5, h6⟩
            rcases List.mem_append.1 h5 with h5 | h5
            · obtain ⟨g', h7, h8, h9⟩ := h4 d' h5 q g.1 h6
              exact Or.inr ⟨g', h7, h8, h9⟩
            · rw [List.mem_singleton.1 h5, hs] at h6
              have := List.append_inj' (Option.some.inj h6) rfl
              exact Or.inl ⟨(List.cons.inj this.2).1.symm, this.1.symm⟩
        refine ⟨?_, key⟩
        have hk : g.1 ∈ (addGroup e0 p0 gs).map Prod.fst := List.mem_map_of_mem hgm
        rcases (i2 g.1).1 hk with hk | hk
        · exact List.ne_nil_of_mem ((key p0).2 ⟨d, by simp, by rw [hs, hk]⟩)
        · obtain ⟨g', h5, h6⟩ := List.mem_map.1 hk
          obtain ⟨q, hq⟩ := List.exists_mem_of_ne_nil _ (h3 g' h5).1
          exact List.ne_nil_of_mem ((i3 g hgm q).2 (Or.inr ⟨g', h5, h6, hq⟩))
      · intro d' h5 q e h6
        have hmem : ∀ x, x ∈ (addGroup e0 p0 gs).map Prod.fst → ∃ g ∈ addGroup e0 p0 gs, g.1 = x := fun x hx => by
          obtain ⟨g, h, h'⟩ := List.mem_map.1 hx
          exact ⟨g, h, h'⟩
        rcases List.mem_append.1 h5 with h5 | h5
        · obtain ⟨g', h7, h8, h9⟩ := h4 d' h5 q e h6
          obtain ⟨g, h10, h11⟩ := hmem e ((i2 e).2 (Or.inr (by rw [← h8]; exact List.mem_map_of_mem h7)))
          exact ⟨g, h10, h11, (i3 g h10 q).2 (Or.inr ⟨g', h7, h8.trans h11.symm, h9⟩)⟩
        · rw [List.mem_singleton.1 h5, hs] at h6
          have := List.append_inj' (Option.some.inj h6) rfl
          have he : e0 = e := (List.cons.inj this.2).1
          obtain ⟨g, h10, h11⟩ := hmem e ((i2 e).2 (Or.inl he.symm))
          exact ⟨g, h10, h11, (i3 g h10 q).2 (Or.inl ⟨h11.trans he.symm, this.1.symm⟩)⟩

theorem unique_length {psl : Psl} {names unique : List Bytes} (h : IsUnique psl names unique) : unique.length ≤ names.length := by
  have hs : unique ⊆ names.map removeWildCardAndWWW := by
    intro x hx
    obtain ⟨d, h1, _, h3⟩ := (h.2 x).1 hx
    exact h3 ▸ List.mem_map_of_mem h1
  have := (List.subperm_of_subset h.1 hs).length_le
  simpa using this

/-- No more names than were given. -/
theorem C53_count {psl : Psl} {names out : List Bytes} (h : Extracts psl names out) : out.length ≤ names.length := by
  obtain ⟨unique, h1, h2⟩ := h
  have := unique_length h1
  rw [h2.length_eq]
  unfold extractUnique
  split
  · exact this
  · have := (groups_spec (psl := psl) unique).2.1
    simp
    omega

/-- Every valid name that is more than a public suffix, even without `*.` and `www.`, is covered: with `pre` the labels before its e2LD `e`, some of
the last of them with `e` make up a name of the result; for more than four different names, as many as all names with this e2LD have in common. -/
theorem C53_covers_partial {psl : Psl} (hp : IsPsl psl) {names out : List Bytes} (h : Extracts psl names out) (d : Bytes) (hd : d ∈ names)
    (hv : isValidDomain psl d = true) (hs : (psl (removeWildCardAndWWW d)).2 = true → (psl (removeWildCardAndWWW d)).1 ≠ removeWildCardAndWWW d) :
    ∃ pre e c, split (removeWildCardAndWWW d) = pre ++ e ∧ splitE2LD psl (removeWildCardAndWWW d) = some (pre ++ [joinDots e]) ∧ c <:+ pre ∧
      joinDots (c ++ e) ∈ out := by
  obtain ⟨unique, h1, h2⟩ := h
  have hl := fun l hl => (valid_labels hv l hl).1
  obtain ⟨r, hr⟩ := Option.isSome_iff_exists.1 ((splitE2LD_isSome hp hl).2 hs)
  obtain ⟨pre, e, g1, g2, g3, _⟩ := splitE2LD_spec hp hl hr
  subst g3
  have hmem : removeWildCardAndWWW d ∈ unique := (h1.2 _).2 ⟨d, hd, hv, rfl⟩
  by_cases h4 : unique.length ≤ 4
  · refine ⟨pre, e, pre, g1, hr, List.suffix_refl _, h2.mem_iff.2 ?_⟩
    unfold extractUnique
    rw [if_pos h4, ← g1, joinDots_split]
    exact hmem
  · obtain ⟨_, _, k3, k4⟩ := groups_spec (psl := psl) unique
    obtain ⟨g, m1, m2, m3⟩ := k4 _ hmem pre (joinDots e) hr
    obtain ⟨c, n1, n2, n3⟩ := longest_spec (k3 g m1).1
    refine ⟨pre, e, c, g1, hr, n2 pre m3, h2.mem_iff.2 ?_⟩
    unfold extractUnique
    rw [if_neg h4]
    refine List.mem_map.2 ⟨g, m1, ?_⟩
    rw [n1, m2, dotted_joinDots g2]

/-- Nothing else is in the result: every name of it is a given valid name without `*.` and `www.`, or what is left of one without some of its first labels, and contains its e2LD. -/
theorem C53_sound {psl : Psl} (hp : IsPsl psl) {names out : List Bytes} (h : Extracts psl names out) (r : Bytes) (hr : r ∈ out) :
    ∃ d ∈ names, isValidDomain psl d = true ∧ ∃ b c, split (removeWildCardAndWWW d) = b ++ c ∧ r = joinDots c ∧
      (b ≠ [] → ∃ pre e, split (removeWildCardAndWWW d) = pre ++ e ∧ splitE2LD psl (removeWildCardAndWWW d) = some (pre ++ [joinDots e]) ∧ e <:+ c) := by
  obtain ⟨unique, h1, h2⟩ := h
  have hr' := h2.mem_iff.1 hr
  unfold extractUnique at hr'
  split at hr'
  · obtain ⟨d, g1, g2, g3⟩ := (h1.2 r).1 hr'
    exact ⟨d, g1, g2, [], split (removeWildCardAndWWW d), rfl, by rw [joinDots_split, g3], fun h => absurd rfl h⟩
  · obtain ⟨g, m1, m2⟩ := List.mem_map.1 hr'
    obtain ⟨_, _, k3, k4⟩ := groups_spec (psl := psl) unique
    obtain ⟨c, n1, n2, n3⟩ := longest_spec (k3 g m1).1
    obtain ⟨q, hq⟩ := List.exists_mem_of_ne_nil _ (k3 g m1).1
    obtain ⟨x, hx, hxs⟩ := ((k3 g m1).2 q).1 hq
    obtain ⟨d, g1, g2, g3⟩ := (h1.2 x).1 hx
    subst g3
    obtain ⟨pre, e, o1, o2, o3, _⟩ := splitE2LD_spec hp (fun l hl => (valid_labels g2 l hl).1) hxs
    have := List.append_inj' o3 rfl
    have he : g.1 = joinDots e := (List.cons.inj this.2).1
    obtain ⟨b, hb⟩ := n2 q hq
    refine ⟨d, g1, g2, b, c ++ e, ?_, ?_, fun _ => ⟨pre, e, o1, by rw [hxs, o3], List.suffix_append _ _⟩⟩
    · rw [o1, ← this.1, ← hb, List.append_assoc]
    · rw [← m2, n1, he, dotted_joinDots o2]

/-- The common part is as long as possible. -/
theorem C53_longest {psl : Psl} {unique : List Bytes} (h4 : 4 < unique.length) (r : Bytes) (hr : r ∈ extractUnique psl unique) :
    ∃ e c, r = dotted c ++ e ∧ (∃ d ∈ unique, ∃ q, splitE2LD psl d = some (q ++ [e])) ∧ (∀ d ∈ unique, ∀ q, splitE2LD psl d = some (q ++ [e]) → c <:+ q) ∧
      ∀ x, (∀ d ∈ unique, ∀ q, splitE2LD psl d = some (q ++ [e]) → x <:+ q) → x <:+ c := by
  unfold extractUnique at hr
  rw [if_neg (by omega)] at hr
  obtain ⟨g, m1, m2⟩ := List.mem_map.1 hr
  obtain ⟨_, _, k3, k4⟩ := groups_spec (psl := psl) unique
  obtain ⟨c, n1, n2, n3⟩ := longest_spec (k3 g m1).1
  obtain ⟨q, hq⟩ := List.exists_mem_of_ne_nil _ (k3 g m1).1
  obtain ⟨x, hx, hxs⟩ := ((k3 g m1).2 q).1 hq
  refine ⟨g.1, c, by rw [← m2, n1], ⟨x, hx, q, hxs⟩, fun d hd q hq => n2 q (((k3 g m1).2 q).2 ⟨d, hd, hq⟩), fun y hy => n3 y (fun q hq => ?_)⟩
  obtain ⟨d, hd, hq'⟩ := ((k3 g m1).2 q).1 hq
  exact hy d hd q hq'

/-- Five names of `example.com` and one other. -/
def exNames : List Bytes := [asc "a.x.example.com", asc "*.b.x.example.com", asc "x.example.com", asc "c.x.example.com", asc "d.x.example.com", asc "www.other.com", asc "-bad.com"]

example : Extracts exPsl exNames [asc "x.example.com", asc "other.com"] := by
  refine ⟨[asc "a.x.example.com", asc "b.x.example.com", asc "x.example.com", asc "c.x.example.com", asc "d.x.example.com", asc "other.com"], ⟨by decide +kernel, ?_⟩, ?_⟩
  · intro x
    have h : (exNames.filter (isValidDomain exPsl)).map removeWildCardAndWWW =
      [asc "a.x.example.com", asc "b.x.example.com", asc "x.example.com", asc "c.x.example.com", asc "d.x.example.com", asc "other.com"] := by decide +kernel
    rw [← h]
    simp [and_assoc]
  · have : extractUnique exPsl [asc "a.x.example.com", asc "b.x.example.com", asc "x.example.com", asc "c.x.example.com", asc "d.x.example.com", asc "other.com"] =
      [asc "x.example.com", asc "other.com"] := by decide +kernel
    rw [this]

/-- A certificate for `www.com`: the affected domain is the public suffix `com`, which is not a valid domain; with four more names of other domains, none is. -/
theorem C53_www_violated :
    Extracts exPsl [asc "www.com"] [asc "com"] ∧ isValidDomain exPsl (asc "com") = false ∧
    Extracts exPsl [asc "www.com", asc "a.com", asc "b.com", asc "c.com", asc "d.com"] [asc "a.com", asc "b.com", asc "c.com", asc "d.com"] := by
  refine ⟨⟨[asc "com"], ⟨by decide +kernel, ?_⟩, ?_⟩, by decide +kernel, ⟨[asc "com", asc "a.com", asc "b.com", asc "c.com", asc "d.com"], ⟨by decide +kernel, ?_⟩, ?_⟩⟩
  · intro x
    have h : (([asc "www.com"]).filter (isValidDomain exPsl)).map removeWildCardAndWWW = [asc "com"] := by decide +kernel
    rw [← h]
    simp
  · have : extractUnique exPsl [asc "com"] = [asc "com"] := by decide +kernel
    rw [this]
  · intro x
    have h : (([asc "www.com", asc "a.com", asc "b.com", asc "c.com", asc "d.com"]).filter (isValidDomain exPsl)).map removeWildCardAndWWW =
      [asc "com", asc "a.com", asc "b.com", asc "c.com", asc "d.com"] := by decide +kernel
    rw [← h]
    simp [and_assoc]
  · have : extractUnique exPsl [asc "com", asc "a.com", asc "b.com", asc "c.com", asc "d.com"] = [asc "a.com", asc "b.com", asc "c.com", asc "d.com"] := by decide +kernel
    rw [this]

end Fpki.Domain
