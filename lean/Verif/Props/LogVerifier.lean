import Verif.Model.LogVerifier

/-!
# C51: log inclusion verification
-/
namespace Fpki.LogVerifier

variable {ρ κ π σ : Type}

/-- C51: `VerifyInclusionByHash` accepts exactly if some proof verifies and all proofs before it have another root (so none before it is malformed or nil). -/
theorem C51_accepted_iff (incl : ρ → κ → π → Outcome) (root : ρ) (leaf : κ) (ps : List (Option π)) :
    verifyInclusionByHash incl root leaf ps = .accepted ↔
      ∃ pre p post, ps = pre ++ some p :: post ∧ incl root leaf p = .ok ∧ ∀ q ∈ pre, ∃ q', q = some q' ∧ incl root leaf q' = .mismatch := by
  induction ps with
  | nil =>
    constructor
    · intro h; cases h
    · rintro ⟨pre, p, post, h, _⟩
      cases pre <;> cases h
  | cons q ps ih =>
    cases q with
    | none =>
      constructor
      · intro h; cases h
      · rintro ⟨pre, p, post, h, _, h2⟩
        cases pre with
        | nil => cases h
        | cons x xs =>
          cases h
          obtain ⟨_, h, _⟩ := h2 none (by simp)
          cases h
    | some q =>
      simp only [verifyInclusionByHash]
      cases ho : incl root leaf q with
      | ok => simp only [true_iff]; exact ⟨[], q, ps, rfl, ho, by simp⟩
      | malformed =>
        constructor
        · intro h; cases h
        · rintro ⟨pre, p, post, h, h1, h2⟩
          cases pre with
          | nil => cases h; rw [ho] at h1; cases h1
          | cons x xs =>
            cases h
            obtain ⟨_, h, h'⟩ := h2 (some q) (by simp)
            cases h; rw [ho] at h'; cases h'
      | mismatch =>
        simp only
        rw [ih]
        constructor
        · rintro ⟨pre, p, post, rfl, h1, h2⟩
          refine ⟨some q :: pre, p, post, rfl, h1, ?_⟩
          intro x hx
          rcases List.mem_cons.1 hx with rfl | hx
          · exact ⟨q, rfl, ho⟩
          · exact h2 x hx
        · rintro ⟨pre, p, post, h, h1, h2⟩
          cases pre with
          | nil => cases h; rw [ho] at h1; cases h1
          | cons x xs =>
            cases h
            exact ⟨xs, p, post, rfl, h1, fun y hy => h2 y (by simp [hy])⟩

/-- C51: without proofs the verification fails. -/
theorem C51_empty (incl : ρ → κ → π → Outcome) (root : ρ) (leaf : κ) : verifyInclusionByHash incl root leaf [] = .refused := rfl

/-- C51: without nil proofs there is no panic. -/
theorem C51_no_panic (incl : ρ → κ → π → Outcome) (root : ρ) (leaf : κ) (ps : List π) : verifyInclusionByHash incl root leaf (ps.map some) ≠ .panicked := by
  induction ps with
  | nil => intro h; cases h
  | cons p ps ih =>
    simp only [List.map_cons, verifyInclusionByHash]
    cases incl root leaf p with
    | ok => intro h; cases h
    | malformed => intro h; cases h
    | mismatch => exact ih

/-- C51: `VerifyInclusionWithPrevLogRoot` accepts exactly if both roots are there, the leaf is accepted for the trusted root, and the new root is consistent with the trusted one; consistency is only
skipped for an empty trusted tree, for which no inclusion proof verifies (an index is never below size 0: the library's `VerifyInclusion` returns an error, `hlib`). -/
theorem C51_with_previous_root (incl : ρ → κ → π → Outcome) (size : ρ → Nat) (cons : ρ → ρ → σ → Bool) (hlib : ∀ r l p, size r = 0 → incl r l p = .malformed) (trusted newRoot : Option ρ) (c : σ)
    (leaf : κ) (ps : List (Option π)) :
    verifyInclusionWithPrevLogRoot incl size cons trusted newRoot c leaf ps = .accepted ↔
      ∃ t n, trusted = some t ∧ newRoot = some n ∧ verifyInclusionByHash incl t leaf ps = .accepted ∧ cons t n c = true := by
  cases trusted with
  | none => simp [verifyInclusionWithPrevLogRoot]
  | some t =>
    cases newRoot with
    | none => simp [verifyInclusionWithPrevLogRoot]
    | some n =>
      simp only [verifyInclusionWithPrevLogRoot, Option.some.injEq]
      constructor
      · intro h
        cases hv : verifyInclusionByHash incl t leaf ps with
        | refused => rw [hv] at h; cases h
        | panicked => rw [hv] at h; cases h
        | accepted =>
          rw [hv] at h
          refine ⟨t, n, rfl, rfl, hv, ?_⟩
          obtain ⟨pre, p, post, _, hp, _⟩ := (C51_accepted_iff incl t leaf ps).1 hv
          have hs : size t ≠ 0 := by
            intro h0
            rw [hlib t leaf p h0] at hp
            cases hp
          simp only [verifyRoot, hs, ne_eq, not_false_eq_true, if_true] at h
          cases hc : cons t n c with
          | true => rfl
          | false => rw [hc] at h; cases h
      · rintro ⟨t', n', rfl, rfl, hv, hc⟩
        rw [hv]
        have : (if size t ≠ 0 then some n else some n) = some n := by split <;> rfl
        simp only [verifyRoot, hc, if_true, this]


/-- The order of the proofs matters: a malformed proof before a good one refuses the leaf, the other way around it is accepted. -/
example : let incl : Unit → Unit → Bool → Outcome := fun _ _ b => if b then .ok else .malformed
    verifyInclusionByHash incl () () [some true, some false] = .accepted ∧ verifyInclusionByHash incl () () [some false, some true] = .refused := by decide

/-- A case with a mismatch first; and `hlib` is met. -/
example : let incl : Nat → Unit → Nat → Outcome := fun r _ p => if r = 0 then .malformed else if p = 1 then .ok else .mismatch
    (∀ r l p, r = 0 → incl r l p = .malformed) ∧ verifyInclusionByHash incl 5 () [some 0, some 1, none] = .accepted ∧
    verifyInclusionWithPrevLogRoot incl id (fun (a b : Nat) (_ : Unit) => decide (a ≤ b)) (some 5) (some 7) () () [some 0, some 1] = .accepted ∧
    verifyInclusionWithPrevLogRoot incl id (fun (a b : Nat) (_ : Unit) => decide (a ≤ b)) (some 5) (some 3) () () [some 0, some 1] = .refused := by
  refine ⟨fun r l p h => by simp [h], by decide, by decide, by decide⟩

end Fpki.LogVerifier
