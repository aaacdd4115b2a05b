import Verif.Model.CertReader

/-!
# C59: reading certificates
-/
namespace Fpki.CertReader

variable {Cert : Type}

/-! ## Specification -/

/-- The blocks of a text, at most as many as the counter says. -/
def blocksFuel (L : Lib Cert) : Nat → Bytes → List Block
  | 0, _ => []
  | fuel + 1, s =>
    match L.decode s with
    | none => []
    | some (b, r) => b :: blocksFuel L fuel r

/-- All PEM blocks of a text. -/
def blocks (L : Lib Cert) (s : Bytes) : List Block := blocksFuel L (s.length + 1) s

/-- The certificates of a text, in order; `none` for a CERTIFICATE block that is not a certificate. -/
def certsOf (L : Lib Cert) (s : Bytes) : List (Option Cert) := ((blocks L s).filter Block.isCert).map (fun b => L.parse b.bytes)

/-- What may be left of the stream after some blocks have been found, each in some beginning `p` of what was left. -/
inductive Tail (L : Lib Cert) (stream : Bytes) : Bytes → Prop
  | self : Tail L stream stream
  | step {p q b r} (h : Tail L stream (p ++ q)) (hd : L.decode p = some (b, r)) : Tail L stream (r ++ q)

/-- What is assumed of the PEM decoder for the stream: the rest is a proper suffix, and a block found at the beginning of a piece of the stream is also found if more of the stream is known. (`Props/Pem` proves this of `encoding/pem`, for streams that `CertWriter` has written.) -/
structure Stable (L : Lib Cert) (stream : Bytes) : Prop where
  suffix : ∀ s b r, L.decode s = some (b, r) → r <:+ s ∧ r.length < s.length
  extend : ∀ p q b r, Tail L stream (p ++ q) → L.decode p = some (b, r) → blocks L (p ++ q) = b :: blocks L (r ++ q)

/-- The reader gives at least a byte if there is room and something left, and reports the end of the stream. -/
def Ans.Good : Ans → Prop
  | .read k flag => 0 < k ∧ flag = true
  | .fail => False

/-! ## Lemmas -/

theorem blocksFuel_enough (L : Lib Cert) {stream : Bytes} (hst : Stable L stream) : ∀ (f g : Nat) (s : Bytes), s.length < f → s.length < g → blocksFuel L f s = blocksFuel L g s
  | 0, _, _, h, _ => by omega
  | _, 0, _, _, h => by omega
  | f + 1, g + 1, s, h1, h2 => by
    unfold blocksFuel
    cases hd : L.decode s with
    | none => rfl
    | some x =>
      obtain ⟨b, r⟩ := x
      have := (hst.suffix s b r hd).2
      simp only
      rw [blocksFuel_enough L hst f g r (by omega) (by omega)]

theorem blocks_none (L : Lib Cert) (s : Bytes) (h : L.decode s = none) : blocks L s = [] := by
  unfold blocks blocksFuel
  rw [h]

theorem Tail.suffix {L : Lib Cert} {stream : Bytes} (hst : Stable L stream) {u : Bytes} (h : Tail L stream u) : u <:+ stream := by
  induction h with
  | self => exact List.suffix_refl _
  | @step p q b r _ hd ih =>
    refine List.IsSuffix.trans ?_ ih
    obtain ⟨t, ht⟩ := (hst.suffix p b r hd).1
    exact ⟨t, by rw [← ht, List.append_assoc]⟩

/-- What holds between calls. -/
structure Inv (L : Lib Cert) (stream : Bytes) (s : St) : Prop where
  pos : 0 < s.storage.length
  fits : s.buff.length ≤ s.storage.length
  suffix : Tail L stream (s.buff ++ s.rest)
  ended : s.eof = true → s.rest = []

theorem fill_read {L : Lib Cert} {stream : Bytes} {s : St} (hi : Inv L stream s) (k : Nat) (flag : Bool) {s' : St} {m : Nat} {e : Bool} (h : fill (.read k flag) s = some (s', m, e)) :
    s'.buff = s.buff ++ s.rest.take m ∧ s'.rest = s.rest.drop m ∧ s'.storage.length = s.storage.length ∧ s'.eof = s.eof ∧ m = min (min k (s.storage.length - s.buff.length)) s.rest.length ∧
      e = ((s.rest.drop m).isEmpty && flag) := by
  have hfit := hi.fits
  simp only [fill, Option.some.injEq, Prod.mk.injEq] at h
  obtain ⟨h1, h2, h3⟩ := h
  have hn : min s.storage.length s.buff.length = s.buff.length := by omega
  rw [hn] at h1 h2 h3
  have hlen : (s.buff.take s.buff.length ++ s.storage.drop s.buff.length).length = s.storage.length := by simp; omega
  rw [hlen] at h1 h2 h3
  have hm : m = min (min k (s.storage.length - s.buff.length)) s.rest.length := by rw [← h2, List.length_take]
  have htake : s.rest.take (min k (s.storage.length - s.buff.length)) = s.rest.take m := by
    rw [hm]
    rcases Nat.le_total (min k (s.storage.length - s.buff.length)) s.rest.length with h | h
    · rw [Nat.min_eq_left h]
    · rw [Nat.min_eq_right h, List.take_of_length_le h, List.take_of_length_le (Nat.le_refl _)]
  have hml : (s.rest.take m).length = m := by rw [List.length_take]; omega
  rw [htake, hml] at h1 h3
  have hpre : (s.buff.take s.buff.length ++ s.storage.drop s.buff.length).take s.buff.length = s.buff := by simp
  rw [hpre] at h1
  subst h1
  refine ⟨?_, rfl, ?_, rfl, hm, h3.symm⟩
  · show (s.buff ++ s.rest.take m ++ _).take (s.buff.length + m) = _
    rw [List.take_append_of_le_length (by simp; omega), List.take_of_length_le (by simp; omega)]
  · show (s.buff ++ s.rest.take m ++ List.drop (s.buff.length + m) _).length = _
    simp only [List.length_append, List.length_drop, hml]
    simp
    omega

theorem certsOf_none (L : Lib Cert) (s : Bytes) (h : L.decode s = none) : certsOf L s = [] := by
  unfold certsOf
  rw [blocks_none L s h]
  rfl

theorem parseLoop_spec (L : Lib Cert) {stream : Bytes} (hst : Stable L stream) (q : Bytes) : ∀ (fuel : Nat) (buff : Bytes) (w : Nat), buff.length < fuel → Tail L stream (buff ++ q) →
    (∀ cs r, parseLoop L fuel buff w = .ok cs r → certsOf L (buff ++ q) = cs.map some ++ certsOf L (r ++ q) ∧ (r <:+ buff ∧ Tail L stream (r ++ q)) ∧ cs.length ≤ w ∧ (cs.length < w → L.decode r = none)) ∧
    (∀ r, parseLoop L fuel buff w = .err r → ∃ cs : List Cert, certsOf L (buff ++ q) = cs.map some ++ none :: certsOf L (r ++ q) ∧ (r <:+ buff ∧ Tail L stream (r ++ q)) ∧ cs.length < w)
  | 0, _, _, h, _ => by omega
  | fuel + 1, buff, w, hlen, hsuf => by
    unfold parseLoop
    by_cases hw : w = 0
    · rw [if_pos hw]
      refine ⟨fun cs r h => ?_, (by intro r h; cases h)⟩
      cases h
      exact ⟨by simp, ⟨List.suffix_refl _, hsuf⟩, by simp, by simp [hw]⟩
    rw [if_neg hw]
    cases hd : L.decode buff with
    | none =>
      refine ⟨fun cs r h => ?_, (by intro r h; cases h)⟩
      cases h
      exact ⟨by simp, ⟨List.suffix_refl _, hsuf⟩, by simp, fun _ => hd⟩
    | some x =>
      obtain ⟨b, r0⟩ := x
      have hsh := hst.suffix buff b r0 hd
      have hext := hst.extend buff q b r0 hsuf hd
      have hsuf' : Tail L stream (r0 ++ q) := .step hsuf hd
      simp only
      by_cases hb : b.isCert = true
      · have hc : certsOf L (buff ++ q) = L.parse b.bytes :: certsOf L (r0 ++ q) := by
          unfold certsOf
          rw [hext, List.filter_cons_of_pos hb]
          rfl
        rw [hb]
        simp only [Bool.not_true, Bool.false_eq_true, if_false]
        cases hp : L.parse b.bytes with
        | none =>
          refine ⟨(by intro cs r h; cases h), fun r h => ?_⟩
          cases h
          exact ⟨[], by rw [hc, hp]; rfl, ⟨hsh.1, hsuf'⟩, by simp; omega⟩
        | some c =>
          obtain ⟨ih1, ih2⟩ := parseLoop_spec L hst q fuel r0 (w - 1) (by omega) hsuf'
          cases hr : parseLoop L fuel r0 (w - 1) with
          | ok cs' r' =>
            refine ⟨fun cs r h => ?_, (by intro r h; cases h)⟩
            cases h
            obtain ⟨a1, a2, a3, a4⟩ := ih1 cs' _ hr
            refine ⟨by rw [hc, hp, a1]; rfl, ⟨a2.1.trans hsh.1, a2.2⟩, by simp; omega, ?_⟩
            intro h
            apply a4
            simp only [List.length_cons] at h
            omega
          | err r' =>
            refine ⟨(by intro cs r h; cases h), fun r h => ?_⟩
            cases h
            obtain ⟨cs, a1, a2, a3⟩ := ih2 _ hr
            exact ⟨c :: cs, by rw [hc, hp, a1]; rfl, ⟨a2.1.trans hsh.1, a2.2⟩, by simp; omega⟩
      · have hb : b.isCert = false := by simpa using hb
        have hc : certsOf L (buff ++ q) = certsOf L (r0 ++ q) := by
          unfold certsOf
          rw [hext, List.filter_cons_of_neg (by simp [hb])]
        rw [hb, hc]
        simp only [Bool.not_false, if_true]
        obtain ⟨ih1, ih2⟩ := parseLoop_spec L hst q fuel r0 w (by omega) hsuf'
        refine ⟨fun cs r h => ?_, fun r h => ?_⟩
        · obtain ⟨a1, a2, a3, a4⟩ := ih1 cs r h
          exact ⟨a1, ⟨a2.1.trans hsh.1, a2.2⟩, a3, a4⟩
        · obtain ⟨cs, a1, a2, a3⟩ := ih2 r h
          exact ⟨cs, a1, ⟨a2.1.trans hsh.1, a2.2⟩, a3⟩

/-- What `Read` guarantees for a state. -/
def ReadOk (L : Lib Cert) (stream : Bytes) (s : St) (w : Nat) (acc : List Cert) : Result Cert → Prop
  | .done cs s' _ => ∃ new : List Cert, cs = acc ++ new ∧ certsOf L (s.buff ++ s.rest) = new.map some ++ certsOf L (s'.buff ++ s'.rest) ∧ new.length ≤ w ∧
      (new.length < w → s'.rest = [] ∧ certsOf L s'.buff = []) ∧ Inv L stream s'
  | .err s' _ => ∃ lost : List Cert, certsOf L (s.buff ++ s.rest) = lost.map some ++ none :: certsOf L (s'.buff ++ s'.rest) ∧ lost.length < w ∧ Inv L stream s'
  | .blocked => True

theorem readLoop_ok (L : Lib Cert) {stream : Bytes} (hst : Stable L stream) : ∀ (as : List Ans) (s : St) (w : Nat) (acc : List Cert), (∀ a ∈ as, a ≠ .fail) → Inv L stream s →
    ReadOk L stream s w acc (readLoop L as s w acc)
  | as, s, 0, acc, _, hi => by
    cases as <;> exact ⟨[], by simp, by simp, by simp, by simp, hi⟩
  | [], s, w + 1, acc, _, hi => trivial
  | a :: as, s, w + 1, acc, hg, hi => by
    unfold readLoop
    cases a with
    | fail => exact absurd rfl (hg _ (by simp))
    | read k flag =>
      cases hf : fill (.read k flag) s with
      | none => simp [fill] at hf
      | some x =>
        obtain ⟨s', m, e⟩ := x
        obtain ⟨f1, f2, f3, f4, f5, f6⟩ := fill_read hi k flag hf
        have hcat : s'.buff ++ s'.rest = s.buff ++ s.rest := by rw [f1, f2, List.append_assoc, List.take_append_drop]
        have hi' : Inv L stream s' := by
          have := hi.pos
          have := hi.fits
          refine ⟨by omega, ?_, by rw [hcat]; exact hi.suffix, ?_⟩
          · rw [f1, f3, List.length_append, List.length_take]; omega
          · intro he
            rw [f4] at he
            rw [f2, hi.ended he, List.drop_nil]
        simp only
        split
        · rename_i hz
          have ih := readLoop_ok L hst as { s' with storage := List.replicate (2 * s'.storage.length) 0 } (w + 1) acc (fun a ha => hg a (by simp [ha]))
            ⟨by have := hi'.pos; simp; omega, by have := hi'.fits; simp; omega, hi'.suffix, hi'.ended⟩
          generalize readLoop L as { s' with storage := List.replicate (2 * s'.storage.length) 0 } (w + 1) acc = res at ih ⊢
          rw [show (ReadOk L stream s (w + 1) acc res) = ReadOk L stream { s' with storage := List.replicate (2 * s'.storage.length) 0 } (w + 1) acc res from ?_]
          · exact ih
          · cases res <;> simp only [ReadOk, hcat]
        · rename_i hz
          have hspec := parseLoop_spec L hst s'.rest (s'.buff.length + 1) s'.buff (w + 1) (by omega) hi'.suffix
          have hrest0 : m = 0 → s'.rest = [] := by
            intro hm
            have he : e = true := by
              cases e with
              | false => exact absurd ⟨hm, rfl⟩ hz
              | true => rfl
            rw [he] at f6
            simp only [Bool.true_eq, Bool.and_eq_true, List.isEmpty_iff] at f6
            rw [f2]; exact f6.1
          have hinv2 : ∀ r, r <:+ s'.buff ∧ Tail L stream (r ++ s'.rest) → Inv L stream { s' with eof := s'.eof || decide (m = 0), buff := r } := by
            intro r hr
            refine ⟨hi'.pos, Nat.le_trans hr.1.length_le hi'.fits, hr.2, ?_⟩
            · intro he
              simp only [Bool.or_eq_true, decide_eq_true_eq] at he
              rcases he with he | he
              · exact hi'.ended he
              · exact hrest0 he
          cases hp : parseLoop L (s'.buff.length + 1) s'.buff (w + 1) with
          | err r =>
            obtain ⟨cs, a1, a2, a3⟩ := hspec.2 r hp
            exact ⟨cs, by rw [← hcat, a1], a3, hinv2 r a2⟩
          | ok cs r =>
            obtain ⟨a1, a2, a3, a4⟩ := hspec.1 cs r hp
            simp only
            split
            · rename_i he
              refine ⟨cs, rfl, by rw [← hcat, a1], a3, ?_, hinv2 r a2⟩
              intro hlt
              exact ⟨(hinv2 r a2).ended he, certsOf_none L r (a4 hlt)⟩
            · have ih := readLoop_ok L hst as { s' with eof := s'.eof || decide (m = 0), buff := r } (w + 1 - cs.length) (acc ++ cs) (fun a ha => hg a (by simp [ha])) (hinv2 r a2)
              generalize readLoop L as { s' with eof := s'.eof || decide (m = 0), buff := r } (w + 1 - cs.length) (acc ++ cs) = res at ih ⊢
              cases res with
              | blocked => trivial
              | done cs2 s2 as2 =>
                obtain ⟨new, b1, b2, b3, b4, b5⟩ := ih
                refine ⟨cs ++ new, by rw [b1, List.append_assoc], ?_, by simp only [List.length_append]; omega, ?_, b5⟩
                · rw [← hcat, a1]
                  simp only at b2
                  rw [b2, List.map_append, List.append_assoc]
                · intro hlt
                  apply b4
                  simp only [List.length_append] at hlt
                  omega
              | err s2 as2 =>
                obtain ⟨lost, b1, b2, b3⟩ := ih
                refine ⟨cs ++ lost, ?_, by simp only [List.length_append]; omega, b3⟩
                rw [← hcat, a1]
                simp only at b1
                rw [b1, List.map_append, List.append_assoc]

/-! ## C59 -/

/-- The state between calls: reached from a new reader by calls of `Read` that return certificates or a parsing error; with everything that these calls have gone past: the certificates returned, and for a call that failed, those that it lost and the block that is not a certificate. -/
inductive Reach (L : Lib Cert) (size : Nat) (stream : Bytes) : St → List (Option Cert) → Prop
  | init : Reach L size stream (new size stream) []
  | read {s past as w cs s' as'} (h : Reach L size stream s past) (hg : ∀ a ∈ as, a ≠ Ans.fail) (hr : read L as s w = .done cs s' as') : Reach L size stream s' (past ++ cs.map some)
  | bad {s past as w s' as'} (lost : List Cert) (h : Reach L size stream s past) (hg : ∀ a ∈ as, a ≠ Ans.fail) (hr : read L as s w = .err s' as')
      (hl : certsOf L (s.buff ++ s.rest) = lost.map some ++ none :: certsOf L (s'.buff ++ s'.rest)) : Reach L size stream s' (past ++ lost.map some ++ [none])

theorem new_inv (L : Lib Cert) {size : Nat} (hsz : 0 < size) (stream : Bytes) : Inv L stream (new size stream) :=
  ⟨by simpa [new] using hsz, by simp [new], .self, by intro h; cases h⟩

theorem Reach.inv {L : Lib Cert} {size : Nat} {stream : Bytes} (hst : Stable L stream) (hsz : 0 < size) {s : St} {past : List (Option Cert)} (h : Reach L size stream s past) :
    Inv L stream s ∧ certsOf L stream = past ++ certsOf L (s.buff ++ s.rest) := by
  induction h with
  | init => exact ⟨new_inv L hsz stream, by simp [new]⟩
  | @read s past as w cs s' as' h hg hr ih =>
    have hok := readLoop_ok L hst as s w [] hg ih.1
    unfold CertReader.read at hr
    rw [hr] at hok
    obtain ⟨new, b1, b2, _, _, b5⟩ := hok
    rw [List.nil_append] at b1
    subst b1
    exact ⟨b5, by rw [ih.2, b2, List.append_assoc]⟩
  | @bad s past as w s' as' lost h hg hr hl ih =>
    have hok := readLoop_ok L hst as s w [] hg ih.1
    unfold CertReader.read at hr
    rw [hr] at hok
    obtain ⟨_, _, _, b5⟩ := hok
    exact ⟨b5, by rw [ih.2, hl]; simp⟩

/-- C59 (partial: while the reader below does not fail and no CERTIFICATE block is malformed): whatever the sizes of the slices given to `Read`, however the stream is cut into pieces, and however small the storage is, the certificates returned so far are the first ones of the stream, in order; and a call that fills fewer than it was given has reached the end of the stream: then all have been returned. -/
theorem C59_read_partial (L : Lib Cert) {size : Nat} (hsz : 0 < size) {stream : Bytes} (hst : Stable L stream) {s : St} {past : List (Option Cert)} (h : Reach L size stream s past)
    {as as' : List Ans} (hg : ∀ a ∈ as, a ≠ Ans.fail) {w : Nat} {cs : List Cert} {s' : St} (hr : read L as s w = .done cs s' as') :
    past ++ cs.map some <+: certsOf L stream ∧ cs.length ≤ w ∧ (cs.length < w → past ++ cs.map some = certsOf L stream) := by
  have hinv := h.inv hst hsz
  have hok := readLoop_ok L hst as s w [] hg hinv.1
  unfold read at hr
  rw [hr] at hok
  obtain ⟨new, b1, b2, b3, b4, b5⟩ := hok
  rw [List.nil_append] at b1
  subst b1
  refine ⟨⟨certsOf L (s'.buff ++ s'.rest), by rw [hinv.2, b2, List.append_assoc]⟩, b3, fun hlt => ?_⟩
  obtain ⟨c1, c2⟩ := b4 hlt
  rw [hinv.2, b2, c1, List.append_nil, c2, List.append_nil]

/-- C59: an error (the reader below does not fail) means a CERTIFICATE block that is not a certificate, within the next `w` ones. -/
theorem C59_error_sound (L : Lib Cert) {size : Nat} (hsz : 0 < size) {stream : Bytes} (hst : Stable L stream) {s : St} {past : List (Option Cert)} (h : Reach L size stream s past)
    {as as' : List Ans} (hg : ∀ a ∈ as, a ≠ Ans.fail) {w : Nat} {s' : St} (hr : read L as s w = .err s' as') :
    ∃ lost : List Cert, lost.length < w ∧ past ++ lost.map some ++ [none] <+: certsOf L stream ∧ Reach L size stream s' (past ++ lost.map some ++ [none]) := by
  have hinv := h.inv hst hsz
  have hok := readLoop_ok L hst as s w [] hg hinv.1
  have hr' := hr
  unfold read at hr
  rw [hr] at hok
  obtain ⟨lost, b1, b2, b3⟩ := hok
  refine ⟨lost, b2, ⟨certsOf L (s'.buff ++ s'.rest), ?_⟩, .bad lost h hg hr' b1⟩
  rw [hinv.2, b1]
  simp

/-- How many answers of the reader are needed at most. -/
def need (s : St) : Nat := 2 * s.rest.length + 1 + (if s.buff.length = s.storage.length then 1 else 0)

/-- The remaining answers are the last ones of the given. -/
def Uses (L : Lib Cert) (as : List Ans) (b : Nat) : Result Cert → Prop
  | .done _ _ as' => as.length ≤ as'.length + b ∧ as' <:+ as
  | .err _ as' => as' <:+ as
  | .blocked => False

theorem readLoop_ends (L : Lib Cert) {stream : Bytes} (hst : Stable L stream) : ∀ (as : List Ans) (s : St) (w : Nat) (acc : List Cert), (∀ a ∈ as, a.Good) → Inv L stream s → need s ≤ as.length →
    Uses L as (need s) (readLoop L as s w acc)
  | as, s, 0, acc, _, hi, _ => by
    cases as <;> exact ⟨by simp, List.suffix_refl _⟩
  | [], s, w + 1, acc, _, hi, hn => by simp [need] at hn
  | a :: as, s, w + 1, acc, hg, hi, hn => by
    have ha := hg a (by simp)
    cases a with
    | fail => exact absurd ha (by simp [Ans.Good])
    | read k flag =>
      obtain ⟨hk, rfl⟩ := ha
      unfold readLoop
      cases hf : fill (.read k true) s with
      | none => simp [fill] at hf
      | some x =>
        obtain ⟨s', m, e⟩ := x
        obtain ⟨f1, f2, f3, f4, f5, f6⟩ := fill_read hi k true hf
        have hcat : s'.buff ++ s'.rest = s.buff ++ s.rest := by rw [f1, f2, List.append_assoc, List.take_append_drop]
        have hfit := hi.fits
        have hpos := hi.pos
        have hrl : s'.rest.length = s.rest.length - m := by rw [f2, List.length_drop]
        have hbl : s'.buff.length = s.buff.length + m := by rw [f1, List.length_append, List.length_take]; omega
        have hi' : Inv L stream s' := by
          refine ⟨by omega, by omega, by rw [hcat]; exact hi.suffix, ?_⟩
          intro he
          rw [f4] at he
          rw [f2, hi.ended he, List.drop_nil]
        have lift : ∀ (res : Result Cert) (b : Nat), b + 1 ≤ need s → Uses L as b res → Uses L (.read k true :: as) (need s) res := by
          intro res b hb hu
          cases res with
          | blocked => exact hu
          | err s2 as2 => exact hu.trans (List.suffix_cons _ _)
          | done cs2 s2 as2 => exact ⟨by have := hu.1; simp only [List.length_cons]; omega, hu.2.trans (List.suffix_cons _ _)⟩
        have hlen : need s ≤ as.length + 1 := by simpa using hn
        simp only
        split
        · rename_i hz
          -- the storage is full: it is doubled
          have hfull : s.buff.length = s.storage.length := by
            have h0 : s.rest ≠ [] := by
              intro h0
              have : e = true := by rw [f6, h0]; simp
              rw [hz.2] at this; cases this
            have : 0 < s.rest.length := List.length_pos_iff.mpr h0
            omega
          have hns : need s = 2 * s.rest.length + 2 := by simp [need, hfull]
          have hnd : need { s' with storage := List.replicate (2 * s'.storage.length) 0 } = 2 * s.rest.length + 1 := by
            simp only [need, List.length_replicate]
            rw [if_neg (by omega)]
            omega
          refine lift _ _ ?_ (readLoop_ends L hst as _ (w + 1) acc (fun a ha => hg a (by simp [ha])) ⟨by simp; omega, by simp; omega, hi'.suffix, hi'.ended⟩ (by rw [hnd]; omega))
          rw [hnd, hns]; omega
        · rename_i hz
          have hspec := parseLoop_spec L hst s'.rest (s'.buff.length + 1) s'.buff (w + 1) (by omega) hi'.suffix
          have hrest0 : m = 0 → s'.rest = [] := by
            intro hm
            have he : e = true := by
              cases e with
              | false => exact absurd ⟨hm, rfl⟩ hz
              | true => rfl
            rw [he] at f6
            simp only [Bool.true_eq, Bool.and_eq_true, List.isEmpty_iff] at f6
            rw [f2]; exact f6.1
          cases hp : parseLoop L (s'.buff.length + 1) s'.buff (w + 1) with
          | err r => exact List.suffix_cons _ _
          | ok cs r =>
            obtain ⟨a1, a2, a3, a4⟩ := hspec.1 cs r hp
            have hrl2 := a2.1.length_le
            simp only
            split
            · exact ⟨by have : 1 ≤ need s := (by unfold need; omega); simp only [List.length_cons]; omega, List.suffix_cons _ _⟩
            · rename_i he
              have hm : m ≠ 0 := by
                intro hm
                exact he (by simp [hm])
              have hi2 : Inv L stream { s' with eof := s'.eof || decide (m = 0), buff := r } := by
                refine ⟨hi'.pos, Nat.le_trans hrl2 hi'.fits, a2.2, ?_⟩
                intro he'
                exact absurd he' he
              have hnd : need { s' with eof := s'.eof || decide (m = 0), buff := r } + 1 ≤ need s := by
                simp only [need]
                split <;> split <;> omega
              exact lift _ _ hnd (readLoop_ends L hst as _ _ _ (fun a ha => hg a (by simp [ha])) hi2 (by omega))

theorem need_le {L : Lib Cert} {stream : Bytes} (hst : Stable L stream) {s : St} (hi : Inv L stream s) : need s ≤ 2 * stream.length + 2 := by
  have := (hi.suffix.suffix hst).length_le
  rw [List.length_append] at this
  unfold need
  split <;> omega

/-- C59: `Read` comes back: at most `2 · length + 2` answers of the reader are needed, whatever the sizes. -/
theorem C59_read_ends (L : Lib Cert) {size : Nat} (hsz : 0 < size) {stream : Bytes} (hst : Stable L stream) {s : St} {past : List (Option Cert)} (h : Reach L size stream s past)
    (as : List Ans) (hg : ∀ a ∈ as, a.Good) (hl : 2 * stream.length + 2 ≤ as.length) (w : Nat) :
    (∃ cs s' as', read L as s w = .done cs s' as') ∨ ∃ s' as', read L as s w = .err s' as' := by
  have hi := (h.inv hst hsz).1
  have hu := readLoop_ends L hst as s w [] hg hi (Nat.le_trans (need_le hst hi) hl)
  unfold read
  generalize readLoop L as s w [] = res at hu
  cases res with
  | blocked => exact absurd hu (by simp [Uses])
  | done cs s' as' => exact Or.inl ⟨cs, s', as', rfl⟩
  | err s' as' => exact Or.inr ⟨s', as', rfl⟩

/-- What `ReadAll` should return for these certificates (after `acc`). -/
def allOf (acc : List Cert) (l : List (Option Cert)) : All Cert := if l.any Option.isNone then .err else .ok (acc ++ l.filterMap id)

theorem allOf_cons (acc : List Cert) (c : Cert) (l : List (Option Cert)) : allOf acc (some c :: l) = allOf (acc ++ [c]) l := by
  unfold allOf
  simp
  rfl

theorem readAllLoop_spec (L : Lib Cert) {stream : Bytes} (hst : Stable L stream) : ∀ (n fuel : Nat) (as : List Ans) (s : St) (acc : List Cert), (∀ a ∈ as, a.Good) → Inv L stream s →
    (certsOf L (s.buff ++ s.rest)).length = n → n < fuel → (n + 1) * (2 * stream.length + 2) ≤ as.length →
    readAllLoop L fuel as s acc = allOf acc (certsOf L (s.buff ++ s.rest))
  | n, 0, _, _, _, _, _, _, h, _ => by omega
  | n, fuel + 1, as, s, acc, hg, hi, hn, hf, hl => by
    have hng : ∀ a ∈ as, a ≠ Ans.fail := by
      intro a ha hc
      have := hg a ha
      rw [hc] at this
      exact this
    have hge : 2 * stream.length + 2 ≤ as.length := by
      rw [Nat.add_mul] at hl
      omega
    have hu := readLoop_ends L hst as s 1 [] hg hi (Nat.le_trans (need_le hst hi) hge)
    have hok := readLoop_ok L hst as s 1 [] hng hi
    have hb := need_le hst hi
    unfold readAllLoop read
    generalize readLoop L as s 1 [] = res at hu hok
    cases res with
    | blocked => exact absurd hu (by simp [Uses])
    | err s' as' =>
      obtain ⟨lost, b1, b2, _⟩ := hok
      rw [b1]; unfold allOf; rw [if_pos (by simp)]
    | done cs s' as' =>
      obtain ⟨new, b1, b2, b3, b4, b5⟩ := hok
      rw [List.nil_append] at b1
      subst b1
      simp only
      cases cs with
      | nil =>
        obtain ⟨c1, c2⟩ := b4 (by simp)
        rw [c1, List.append_nil, c2] at b2
        rw [b2]
        simp [allOf]
      | cons c cs =>
        have : cs = [] := by
          cases cs with
          | nil => rfl
          | cons d cs => simp at b3
        subst this
        rw [if_neg (by simp)]
        have hn' : (certsOf L (s'.buff ++ s'.rest)).length + 1 = n := by
          rw [b2] at hn
          simpa using hn
        have hu1 := hu.1
        rw [readAllLoop_spec L hst (n - 1) fuel as' s' (acc ++ [c]) (fun a ha => hg a (hu.2.subset ha)) b5 (by omega) (by omega) (by
          have e1 : n - 1 + 1 = n := by omega
          rw [e1]
          rw [Nat.add_mul] at hl
          omega)]
        rw [b2]
        exact (allOf_cons acc c _).symm

/-- C59: `ReadAll` returns all certificates of the stream, in order, or an error if some CERTIFICATE block is not one; it comes back. -/
theorem C59_read_all (L : Lib Cert) {size : Nat} (hsz : 0 < size) {stream : Bytes} (hst : Stable L stream) (as : List Ans) (hg : ∀ a ∈ as, a.Good)
    (hl : ((certsOf L stream).length + 1) * (2 * stream.length + 2) ≤ as.length) (fuel : Nat) (hf : (certsOf L stream).length < fuel) :
    readAllLoop L fuel as (new size stream) [] = allOf [] (certsOf L stream) := by
  have := readAllLoop_spec L hst (certsOf L stream).length fuel as (new size stream) [] hg (new_inv L hsz stream) (by simp [new]) hf hl
  simpa [new] using this

/-! ## Violations -/

/-- A small text format for examples: a block is a type byte (1: CERTIFICATE), one byte of contents, and a zero byte. A certificate with the contents 9 cannot be parsed. -/
def exLib : Lib Byte where
  decode
    | t :: c :: 0 :: r => some (⟨t == 1, [c]⟩, r)
    | _ => none
  parse
    | [9] => none
    | [c] => some c
    | _ => none

theorem exLib_decode {s : Bytes} {b : Block} {r : Bytes} (h : exLib.decode s = some (b, r)) : ∃ t c, s = t :: c :: 0 :: r ∧ b = ⟨t == 1, [c]⟩ := by
  simp only [exLib] at h
  split at h
  · cases h
    exact ⟨_, _, rfl, rfl⟩
  · cases h

theorem exLib_stable (stream : Bytes) : Stable exLib stream := by
  have suffix : ∀ s b r, exLib.decode s = some (b, r) → r <:+ s ∧ r.length < s.length := by
    intro s b r h
    obtain ⟨t, c, rfl, -⟩ := exLib_decode h
    exact ⟨⟨[t, c, 0], rfl⟩, by simp; omega⟩
  refine ⟨suffix, ?_⟩
  intro p q b r _ h
  obtain ⟨t, c, rfl, rfl⟩ := exLib_decode h
  have : ∀ f g s, s.length < f → s.length < g → blocksFuel exLib f s = blocksFuel exLib g s := fun f g s => blocksFuel_enough exLib (stream := []) ⟨suffix, by
    intro p q b r hp h
    have tail : ∀ u, Tail exLib [] u → u = [] := by
      intro u hu
      induction hu with
      | self => rfl
      | step _ hd ih =>
        obtain ⟨t, c, rfl, -⟩ := exLib_decode hd
        simp at ih
    have := tail _ hp
    obtain ⟨t, c, rfl, -⟩ := exLib_decode h
    simp at this⟩ f g s
  show blocksFuel exLib _ (t :: c :: 0 :: (r ++ q)) = _
  unfold blocks
  rw [show ∀ n, blocksFuel exLib (n + 1) (t :: c :: 0 :: (r ++ q)) = ⟨t == 1, [c]⟩ :: blocksFuel exLib n (r ++ q) from fun n => rfl]
  rw [show blocksFuel exLib ((t :: c :: 0 :: r) ++ q).length (r ++ q) = _ from this _ ((r ++ q).length + 1) (r ++ q) (by simp; omega) (by simp)]

def exStream : Bytes := [1, 5, 0, 2, 6, 0, 1, 7, 0, 1, 8, 0, 1]

/-- The hypotheses of the theorems are met: the stream has three certificates, another block and an unfinished block; the storage of one byte is doubled as needed. -/
example : Stable exLib exStream ∧ certsOf exLib exStream = [some 5, some 7, some 8] := ⟨exLib_stable _, by decide +kernel⟩

/-- The certificates of a result. -/
def Result.certs : Result Cert → Option (List Cert)
  | .done cs _ _ => some cs
  | _ => none

def All.certs : All Cert → Option (List Cert)
  | .ok cs => some cs
  | _ => none

example : (read exLib (List.replicate 28 (.read 2 true)) (new 1 exStream) 2).certs = some [5, 7] := by decide +kernel
example : (read exLib (List.replicate 28 (.read 2 true)) (new 1 exStream) 9).certs = some [5, 7, 8] := by decide +kernel
example : (readAllLoop exLib 4 (List.replicate 112 (.read 2 true)) (new 1 exStream) []).certs = some [5, 7, 8] := by decide +kernel

/-- The state after an error. -/
def Result.state : Result Cert → Option (St × List Ans)
  | .done _ s as => some (s, as)
  | .err s as => some (s, as)
  | .blocked => none

/-- C59 is violated if a block cannot be parsed: the certificates before it, which the same call has parsed, are not returned by this call or a later one (the count is 0), while those after it are. -/
theorem C59_error_loses_violated : ∃ (s : St) (as as' : List Ans), read exLib as (new 100 [1, 5, 0, 1, 9, 0, 1, 7, 0]) 3 = .err s as' ∧ (read exLib as' s 3).certs = some [7] :=
  ⟨⟨[1, 5, 0, 1, 9, 0, 1, 7, 0] ++ List.replicate 91 0, [1, 7, 0], false, []⟩, [.read 100 true, .read 100 true], [.read 100 true], by decide +kernel, by decide +kernel⟩

/-- C59 is violated if the reader below fails once (a temporary error) and the caller goes on: the buffer is then the free part of the storage, which holds earlier bytes. Here the certificate 5 is returned a second time. -/
theorem C59_reader_error_repeats_violated : ∃ (s s' : St) (as : List Ans), read exLib [.read 3 true] (new 3 [1, 5, 0, 1, 7, 0]) 1 = .done [5] s [] ∧ read exLib (.fail :: as) s 1 = .err s' as ∧
    (read exLib as s' 3).certs = some [5, 7] := by
  refine ⟨_, _, List.replicate 30 (.read 8 true), rfl, rfl, ?_⟩
  decide +kernel

/-- And here the certificates 7 and 8 are never returned. -/
theorem C59_reader_error_loses_violated : ∃ (s s' : St) (as : List Ans), read exLib [.read 8 true] (new 8 [1, 5, 0, 1, 7, 0, 1, 8, 0]) 1 = .done [5] s [] ∧ read exLib (.fail :: as) s 1 = .err s' as ∧
    (read exLib as s' 3).certs = some [] := by
  refine ⟨_, _, List.replicate 30 (.read 8 true), rfl, rfl, ?_⟩
  decide +kernel

end Fpki.CertReader
