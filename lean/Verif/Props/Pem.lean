import Verif.Lemmas.Pem
import Verif.Props.CertReader

/-!
# C98: certificates and keys written as PEM texts are read back
-/
namespace Fpki.Pem
open CertReader (Stable Tail Ans All blocks blocksFuel certsOf Block)

/-! ## Specification -/

/-- A PEM text: blocks of these types with these contents. -/
def stream (l : List (Bytes × Bytes)) : Bytes := l.flatMap fun b => encode b.1 b.2

/-! ## Lemmas -/

theorem encode_eq (pre t d z : Bytes) : pre ++ (encode t d ++ z) = (pre ++ beginMark ++ (t ++ dashes ++ [10] ++ (body d ++ endMark ++ t ++ dashes))) ++ ([10] ++ z) := by
  simp [encode]

theorem encode_colon {t : Bytes} (ht : GoodType t) (d : Bytes) : (58 : Byte) ∉ encode t d := by
  intro h
  have hb : (58 : Byte) ∉ body d := fun h => (body_chars d 58 h).2.1 rfl
  have h1 : (58 : Byte) ∉ beginMark := by decide
  have h2 : (58 : Byte) ∉ endMark := by decide
  have h3 : (58 : Byte) ∉ dashes := by decide
  simp [encode, ht.2, hb, h1, h2, h3] at h

theorem stream_colon {l : List (Bytes × Bytes)} (hl : ∀ b ∈ l, GoodType b.1) : (58 : Byte) ∉ stream l := by
  intro h
  obtain ⟨b, hb, h⟩ := List.mem_flatMap.1 h
  exact encode_colon (hl b hb) b.2 h

theorem getLine_nl_rest (c : Bytes) : (getLine (10 :: c)).2 = c := by
  have := getLine_nl [] c (by simp)
  simp only [List.nil_append, List.cons_append] at this
  rw [this]

/-- What is found in a piece of a text: the first block, and only if it is complete. -/
theorem decode_piece {l : List (Bytes × Bytes)} (hl : ∀ b ∈ l, GoodType b.1) {pre p q t d r : Bytes} (hp : Pre pre) (h : p ++ q = pre ++ stream l) (hd : decode p = some (t, d, r)) :
    ∃ l' pre', l = (t, d) :: l' ∧ Pre pre' ∧ r ++ q = pre' ++ stream l' := by
  cases l with
  | nil =>
    exfalso
    unfold decode decodeLoop at hd
    cases hf : findBegin p with
    | none => rw [hf] at hd; cases hd
    | some after =>
      obtain ⟨x, hx, _⟩ := findBegin_some hf
      have := congrArg List.length h
      rw [hx] at this
      have hb : beginMark.length = 11 := rfl
      simp only [stream, List.flatMap_nil, List.append_nil, List.length_append] at this
      have hpl : pre.length ≤ 1 := by rcases hp with rfl | rfl <;> simp
      omega
  | cons b l =>
    obtain ⟨t', d'⟩ := b
    have ht := hl (t', d') (by simp)
    change p ++ q = pre ++ (encode t' d' ++ stream l) at h
    rw [encode_eq] at h
    rcases List.append_eq_append_iff.1 h with ⟨a, h1, h2⟩ | ⟨c, h1, h2⟩
    · by_cases ha : a = []
      · subst ha
        rw [List.append_nil] at h1
        have hc := decodeLoop_complete (z := []) (d := d') hp ht (Or.inl rfl) (by simp) p.length
        rw [List.append_nil] at hc
        rw [← h1] at hd hc
        unfold decode at hd
        rw [hc] at hd
        cases hd
        exact ⟨l, [10], rfl, Or.inr rfl, by rw [h2]; rfl⟩
      · have := decodeLoop_incomplete (d := d') hp ht ha h1.symm (p.length + 1)
        unfold decode at hd
        rw [this] at hd
        cases hd
    · have hcn : (58 : Byte) ∉ c := by
        intro hc
        have : (58 : Byte) ∈ [10] ++ stream l := by
          rw [h2]
          simp [hc]
        rcases List.mem_append.1 this with h | h
        · exact absurd h (by decide)
        · exact stream_colon (fun b hb => hl b (by simp [hb])) h
      have hc : decodeLoop (p.length + 1) p = some (t', d', (getLine c).2) := by
        have hz : c = [] ∨ ∃ z', c = 10 :: z' := by
          cases c with
          | nil => exact Or.inl rfl
          | cons e c =>
            simp only [List.cons_append, List.nil_append, List.cons.injEq] at h2
            exact Or.inr ⟨c, by rw [← h2.1]⟩
        have := decodeLoop_complete (z := c) (d := d') hp ht hz hcn p.length
        rw [show p = pre ++ beginMark ++ (t' ++ dashes ++ [10] ++ (body d' ++ endMark ++ t' ++ dashes ++ c)) by rw [h1]; simp only [List.append_assoc]] at this ⊢
        exact this
      unfold decode at hd
      rw [hc] at hd
      cases hd
      cases c with
      | nil => exact ⟨l, [10], rfl, Or.inr rfl, by rw [h2]; rfl⟩
      | cons e c =>
        simp only [List.cons_append, List.nil_append, List.cons.injEq] at h2
        refine ⟨l, [], rfl, Or.inl rfl, ?_⟩
        rw [← h2.1, getLine_nl_rest, h2.2]
        rfl

theorem decode_stream {t d pre : Bytes} {l : List (Bytes × Bytes)} (hl : ∀ b ∈ (t, d) :: l, GoodType b.1) (hp : Pre pre) : decode (pre ++ stream ((t, d) :: l)) = some (t, d, stream l) := by
  change decode (pre ++ (encode t d ++ stream l)) = _
  rw [encode_eq]
  unfold decode
  have := decodeLoop_complete (z := 10 :: stream l) (d := d) hp (hl (t, d) (by simp)) (Or.inr ⟨_, rfl⟩)
    (by simp only [List.mem_cons, not_or]; exact ⟨by decide, stream_colon fun b hb => hl b (by simp [hb])⟩)
    (pre ++ beginMark ++ (t ++ dashes ++ [10] ++ (body d ++ endMark ++ t ++ dashes)) ++ ([10] ++ stream l)).length
  rw [getLine_nl_rest] at this
  rw [← this]
  congr 1
  simp only [List.append_assoc, List.cons_append, List.nil_append]

variable {Cert : Type}

/-- The block as the reader sees it. -/
def toBlock (b : Bytes × Bytes) : Block := ⟨decide (b.1 = certType), b.2⟩

theorem lib_suffix (parse : Bytes → Option Cert) (s : Bytes) (b : Block) (r : Bytes) (h : (lib parse).decode s = some (b, r)) : r <:+ s ∧ r.length < s.length := by
  simp only [lib] at h
  cases hd : decode s with
  | none => rw [hd] at h; cases h
  | some x =>
    rw [hd] at h
    obtain ⟨t, d, r'⟩ := x
    cases h
    exact decodeLoop_suffix _ _ _ _ _ hd

theorem blocksFuel_stream (parse : Bytes → Option Cert) : ∀ (l : List (Bytes × Bytes)) (pre : Bytes) (fuel : Nat), (∀ b ∈ l, GoodType b.1) → Pre pre → l.length < fuel →
    blocksFuel (lib parse) fuel (pre ++ stream l) = l.map toBlock
  | _, _, 0, _, _, h => by omega
  | [], pre, fuel + 1, hl, hp, _ => by
    unfold blocksFuel
    cases hd : decode (pre ++ stream []) with
    | none =>
      have : (lib parse).decode (pre ++ stream []) = none := by simp only [lib, hd]; rfl
      rw [this]
      rfl
    | some x =>
      obtain ⟨t, d, r⟩ := x
      obtain ⟨l', pre', h, _⟩ := decode_piece (q := []) hl hp (List.append_nil _) hd
      cases h
  | (t, d) :: l, pre, fuel + 1, hl, hp, hf => by
    unfold blocksFuel
    have : (lib parse).decode (pre ++ stream ((t, d) :: l)) = some (toBlock (t, d), stream l) := by
      simp only [lib, decode_stream hl hp]
      rfl
    rw [this]
    have ih := blocksFuel_stream parse l [] fuel (fun b hb => hl b (by simp [hb])) (Or.inl rfl) (by simp only [List.length_cons] at hf; omega)
    rw [List.nil_append] at ih
    simp only [List.map_cons, ih]

theorem stream_length : ∀ l : List (Bytes × Bytes), l.length ≤ (stream l).length
  | [] => Nat.zero_le _
  | b :: l => by
    have ih := stream_length l
    change _ ≤ (encode b.1 b.2 ++ stream l).length
    rw [List.length_append, List.length_cons]
    have : 1 ≤ (encode b.1 b.2).length := by
      simp only [encode, List.length_append, List.length_cons]
      omega
    omega

theorem blocks_stream (parse : Bytes → Option Cert) {l : List (Bytes × Bytes)} {pre : Bytes} (hl : ∀ b ∈ l, GoodType b.1) (hp : Pre pre) : blocks (lib parse) (pre ++ stream l) = l.map toBlock := by
  refine blocksFuel_stream parse l pre _ hl hp ?_
  have := stream_length l
  rw [List.length_append]
  omega

theorem tail_stream (parse : Bytes → Option Cert) {l : List (Bytes × Bytes)} (hl : ∀ b ∈ l, GoodType b.1) {u : Bytes} (h : Tail (lib parse) (stream l) u) :
    ∃ l' pre, (∀ b ∈ l', GoodType b.1) ∧ Pre pre ∧ u = pre ++ stream l' := by
  induction h with
  | self => exact ⟨l, [], hl, Or.inl rfl, rfl⟩
  | @step p q b r _ hd ih =>
    obtain ⟨l', pre, h1, h2, h3⟩ := ih
    simp only [lib] at hd
    cases hd' : decode p with
    | none => rw [hd'] at hd; cases hd
    | some x =>
      rw [hd'] at hd
      obtain ⟨t, d, r'⟩ := x
      cases hd
      obtain ⟨l'', pre', h4, h5, h6⟩ := decode_piece h1 h2 h3 hd'
      subst h4
      exact ⟨l'', pre', fun b hb => h1 b (by simp [hb]), h5, h6⟩

theorem certsOf_stream (parse : Bytes → Option Cert) {l : List (Bytes × Bytes)} (hl : ∀ b ∈ l, GoodType b.1) :
    certsOf (lib parse) (stream l) = (l.filter fun b => decide (b.1 = certType)).map fun b => parse b.2 := by
  unfold certsOf
  have := blocks_stream parse hl (pre := []) (Or.inl rfl)
  rw [List.nil_append] at this
  rw [this, List.filter_map, List.map_map]
  rfl

instance (t : Bytes) : Decidable (GoodType t) := inferInstanceAs (Decidable ((10 : Byte) ∉ t ∧ (58 : Byte) ∉ t))

theorem certType_good : GoodType certType := by decide
theorem keyType_good : GoodType keyType := by decide

theorem serialize_eq (raws : List Bytes) : serialize raws = stream (raws.map fun r => (certType, r)) := by
  unfold serialize stream
  rw [List.flatMap_map]

theorem allOf_some (cs : List Cert) : CertReader.allOf [] (cs.map some) = .ok cs := by
  unfold CertReader.allOf
  rw [if_neg (by simp)]
  simp

theorem storageSize_pos : 0 < storageSize := by
  unfold storageSize
  decide

/-! ## C98 -/

/-- C98: what C59 assumes of the PEM decoder holds for every text made of PEM blocks of any types (without headers): so `Read` returns the certificates of such a text, however the reader cuts it into pieces, in the middle of a mark or of a line as well. -/
theorem C98_stable (parse : Bytes → Option Cert) {l : List (Bytes × Bytes)} (hl : ∀ b ∈ l, GoodType b.1) : Stable (lib parse) (stream l) := by
  refine ⟨lib_suffix parse, ?_⟩
  intro p q b r ht hd
  obtain ⟨l', pre, h1, h2, h3⟩ := tail_stream parse hl ht
  simp only [lib] at hd
  cases hd' : decode p with
  | none => rw [hd'] at hd; cases hd
  | some x =>
    rw [hd'] at hd
    obtain ⟨t, d, r'⟩ := x
    cases hd
    obtain ⟨l'', pre', h4, h5, h6⟩ := decode_piece h1 h2 h3 hd'
    subst h4
    rw [h3, h6, blocks_stream parse h1 h2, blocks_stream parse (fun b hb => h1 b (by simp [hb])) h5]
    rfl

/-- C98: the certificates that `SerializeCertificates` writes are those that `DeserializeCertificates` returns, all of them and in the same order, if the parser reads back what is in each; whatever pieces the reader gives. -/
theorem C98_round_trip (parse : Bytes → Option Cert) (raw : Cert → Bytes) (certs : List Cert) (hp : ∀ c ∈ certs, parse (raw c) = some c)
    (as : List Ans) (hg : ∀ a ∈ as, a.Good) (hlen : (certs.length + 1) * (2 * (serialize (certs.map raw)).length + 2) ≤ as.length) :
    deserialize parse as (serialize (certs.map raw)) = .ok certs := by
  have hl : ∀ b ∈ (certs.map raw).map fun r => (certType, r), GoodType b.1 := by
    intro b hb
    obtain ⟨r, _, rfl⟩ := List.mem_map.1 hb
    exact certType_good
  have hcs : certsOf (lib parse) (serialize (certs.map raw)) = certs.map some := by
    rw [serialize_eq, certsOf_stream parse hl, List.filter_eq_self.2, List.map_map, List.map_map]
    · exact List.map_congr_left fun c hc => hp c hc
    · intro b hb
      obtain ⟨r, _, rfl⟩ := List.mem_map.1 hb
      exact decide_eq_true rfl
  have hlen2 : certs.length ≤ (serialize (certs.map raw)).length := by
    have := stream_length ((certs.map raw).map fun r => (certType, r))
    rw [← serialize_eq] at this
    simpa using this
  have hst : Stable (lib parse) (serialize (certs.map raw)) := by
    rw [serialize_eq]
    exact C98_stable parse hl
  unfold deserialize
  rw [CertReader.C59_read_all (lib parse) storageSize_pos hst as hg (by rw [hcs, List.length_map]; exact hlen) _ (by rw [hcs, List.length_map]; omega), hcs, allOf_some]

/-- C98: a text in which other blocks stand between the certificates: `DeserializeCertificates` returns the certificates, or an error if a CERTIFICATE block is not one. -/
theorem C98_other_blocks (parse : Bytes → Option Cert) {l : List (Bytes × Bytes)} (hl : ∀ b ∈ l, GoodType b.1)
    (as : List Ans) (hg : ∀ a ∈ as, a.Good) (hlen : (l.length + 1) * (2 * (stream l).length + 2) ≤ as.length) :
    deserialize parse as (stream l) = CertReader.allOf [] ((l.filter fun b => decide (b.1 = certType)).map fun b => parse b.2) := by
  have hle : ((l.filter fun b => decide (b.1 = certType)).map fun b => parse b.2).length ≤ l.length := by
    rw [List.length_map]
    exact List.length_filter_le _ _
  have hcs := certsOf_stream parse hl
  have hle2 := stream_length l
  unfold deserialize
  rw [CertReader.C59_read_all (lib parse) storageSize_pos (C98_stable parse hl) as hg _ _ (by rw [hcs]; omega), hcs]
  rw [hcs]
  exact Nat.le_trans (Nat.mul_le_mul_right _ (by omega)) hlen

/-- C98: `CertificateFromPEMBytes` and `CertificateFromPEMFile` return the first certificate of the text, if there is one and it can be parsed. -/
theorem C98_first (parse : Bytes → Option Cert) (raw : Cert → Bytes) (c : Cert) (others : List (Bytes × Bytes)) (hp : parse (raw c) = some c) (hl : ∀ b ∈ others, GoodType b.1)
    (as : List Ans) (hg : ∀ a ∈ as, a.Good) (hlen : 2 * (stream ((certType, raw c) :: others)).length + 2 ≤ as.length) :
    certificateFromPEM parse as (stream ((certType, raw c) :: others)) = .pointer (some c) := by
  have hl' : ∀ b ∈ (certType, raw c) :: others, GoodType b.1 := by
    intro b hb
    rcases List.mem_cons.1 hb with rfl | hb
    · exact certType_good
    · exact hl b hb
  have hst := C98_stable parse hl'
  have hcs : certsOf (lib parse) (stream ((certType, raw c) :: others)) = some c :: (others.filter fun b => decide (b.1 = certType)).map fun b => parse b.2 := by
    rw [certsOf_stream parse hl', List.filter_cons_of_pos (by exact decide_eq_true rfl), List.map_cons, hp]
  have hng : ∀ a ∈ as, a ≠ Ans.fail := by
    intro a ha hc
    have := hg a ha
    rw [hc] at this
    exact this
  have hends := CertReader.C59_read_ends (lib parse) (size := storageSize) storageSize_pos hst .init as hg hlen 1
  have hok := CertReader.readLoop_ok (lib parse) hst as (CertReader.new storageSize (stream ((certType, raw c) :: others))) 1 [] hng (CertReader.new_inv (lib parse) storageSize_pos _)
  have hsb : (CertReader.new storageSize (stream ((certType, raw c) :: others))).buff ++ (CertReader.new storageSize (stream ((certType, raw c) :: others))).rest = stream ((certType, raw c) :: others) := rfl
  rcases hends with ⟨cs, s', as', hr⟩ | ⟨s', as', hr⟩
  · refine (congrArg oneOf hr).trans ?_
    unfold CertReader.read at hr
    rw [hr] at hok
    obtain ⟨new, b1, b2, b3, b4, _⟩ := hok
    rw [hsb, hcs] at b2
    rw [List.nil_append] at b1
    subst b1
    cases cs with
    | nil =>
      obtain ⟨h1, h2⟩ := b4 (by simp)
      rw [h1, List.append_nil, h2] at b2
      cases b2
    | cons c' cs =>
      simp only [List.map_cons, List.cons_append, List.cons.injEq] at b2
      rw [← Option.some.inj b2.1]
      rfl
  · unfold CertReader.read at hr
    rw [hr] at hok
    obtain ⟨lost, b1, b2, _⟩ := hok
    have : lost = [] := List.length_eq_zero_iff.1 (by omega)
    subst this
    rw [hsb, hcs] at b1
    cases b1

/-- C98: a key written by `RSAKeyToPEM` is the one that `RSAKeyFromPEM` returns. -/
theorem C98_key {Key : Type} (marshal : Key → Bytes) (parse : Bytes → Option Key) (k : Key) (h : parse (marshal k) = some k) : keyFromPEM parse (keyToPEM marshal k) = .ok k := by
  have := decode_stream (t := keyType) (d := marshal k) (l := []) (pre := []) (by intro b hb; rw [List.mem_singleton.1 hb]; exact keyType_good) (Or.inl rfl)
  simp only [stream, List.flatMap_cons, List.flatMap_nil, List.append_nil, List.nil_append] at this
  unfold keyFromPEM keyToPEM
  rw [this]
  simp only [ne_eq, not_true, if_false, h]

/-- C98: a public key written by `RSAPublicToDERBase64` is the one that `DERBase64ToRSAPublic` returns. -/
theorem C98_public {Pub : Type} (marshal : Pub → Option Bytes) (parse : Bytes → Option Pub) (k : Pub) (der : Bytes) (hm : marshal k = some der) (h : parse der = some k) :
    (publicToText marshal k).bind (textToPublic parse) = some k := by
  unfold publicToText
  rw [hm]
  simp only [Option.map_some, Option.bind_some, textToPublic, Rows.decodeField_base64, h]

/-! ## Violations -/

/-- C98 is violated: `RSAKeyFromPEM` panics, instead of returning an error, for every text without a PEM block: an empty file, a key in DER form, a text that was cut off. So do the map server and the policy CA when they start. -/
theorem C98_key_panic_violated {Key : Type} (parse : Bytes → Option Key) : keyFromPEM parse [] = .panic ∧ (∀ s : Bytes, (45 : Byte) ∉ s → keyFromPEM parse s = .panic) ∧
    ∀ (t d : Bytes), GoodType t → ∀ (p y : Bytes), p ++ y = encode t d → 1 < y.length → keyFromPEM parse p = .panic := by
  refine ⟨rfl, ?_, ?_⟩
  · intro s hs
    have : decode s = none := by
      unfold decode decodeLoop
      cases hf : findBegin s with
      | none => rfl
      | some after =>
        obtain ⟨x, hx, _⟩ := findBegin_some hf
        exact absurd (by rw [hx]; simp [beginMark]) hs
    unfold keyFromPEM
    rw [this]
  · intro t d ht p y h hy
    have h2 := encode_eq [] t d []
    rw [List.append_nil, List.nil_append, ← h] at h2
    rcases List.append_eq_append_iff.1 h2 with ⟨a, h3, h4⟩ | ⟨c, h3, h4⟩
    · have ha : a ≠ [] := by
        intro h
        subst h
        rw [List.nil_append] at h4
        rw [h4] at hy
        simp at hy
      have := decodeLoop_incomplete (d := d) (Or.inl rfl) ht ha h3.symm (p.length + 1)
      unfold keyFromPEM decode
      rw [this]
    · have := congrArg List.length h4
      simp only [List.length_append, List.length_cons, List.length_nil] at this
      omega

/-- A parser for examples: every text is a certificate, except the empty one. -/
def exParse (b : Bytes) : Option Bytes := if b = [] then none else some b

theorem exParse_ok (c : Bytes) (h : c ≠ []) : exParse c = some c := if_neg h

theorem fill_empty (n : Nat) : CertReader.fill (.read 1 true) (CertReader.new n []) = some (CertReader.new n [], 0, true) := by
  unfold CertReader.fill CertReader.new
  simp

theorem read_empty (parse : Bytes → Option Cert) (n : Nat) : CertReader.read (lib parse) [.read 1 true] (CertReader.new n []) 1 = .done [] ⟨List.replicate n 0, [], true, []⟩ [] := by
  unfold CertReader.read CertReader.readLoop
  rw [fill_empty]
  have : CertReader.parseLoop (lib parse) (([] : Bytes).length + 1) [] (0 + 1) = .ok [] [] := rfl
  simp only [CertReader.new, reduceCtorEq, and_false, if_false, this, decide_true, Bool.or_true, if_true, List.append_nil]

/-- C98 is violated: for a text without a certificate `CertificateFromPEMBytes` returns a pointer to a certificate without contents and no error; the documentation says that it returns nil. -/
theorem C98_none_violated (parse : Bytes → Option Cert) : certificateFromPEM parse [.read 1 true] [] = .pointer none := congrArg oneOf (read_empty parse storageSize)

/-- A block with something else on its last line. -/
def exOdd : Bytes := (encode certType [7]).dropLast ++ [120, 10]

/-- C98 is violated for other texts: what `Read` returns depends on where the reader below cuts. If something stands after the END mark, on the same line, then the block does not count; but if the reader cuts there, it does. -/
theorem C98_cut_violated : (CertReader.read (lib exParse) [.read 200 true, .read 200 true] (CertReader.new 200 exOdd) 1).certs = some [] ∧
    (CertReader.read (lib exParse) [.read 58 true, .read 200 true, .read 200 true] (CertReader.new 200 exOdd) 1).certs = some [[7]] := by
  decide +kernel

/-! ## Examples -/

/-- The hypotheses of the theorems are met: certificates with long contents, and another block between them. -/
example : ∃ certs : List Bytes, certs.length = 2 ∧ (∀ c ∈ certs, exParse (id c) = some c) ∧ 65 < (body (certs.headD [])).length :=
  ⟨[List.replicate 100 7, [1, 2]], rfl, (by decide), (by decide +kernel)⟩

example : ∀ b ∈ [(keyType, [1, 2, 3]), (certType, [7])], GoodType b.1 := by decide

example : (∀ a ∈ List.replicate 5000 (Ans.read 1 true), a.Good) := by
  intro a ha
  rw [List.eq_of_mem_replicate ha]
  exact ⟨by decide, rfl⟩

/-- The text of a short block. -/
example : encode certType [7] = Domain.asc "-----BEGIN CERTIFICATE-----\nBw==\n-----END CERTIFICATE-----\n" := by decide +kernel
example : decode (encode keyType [1, 2, 3] ++ encode certType [7]) = some (keyType, [1, 2, 3], encode certType [7]) := by decide +kernel
/-- Headers are skipped. -/
example : decode (Domain.asc "text\n-----BEGIN X-----\nA: b\n\nBw==\n-----END X-----") = some (Domain.asc "X", [7], []) := by decide +kernel

end Fpki.Pem
