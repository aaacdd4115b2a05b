import Verif.Model.Hasher
/-!
# C208: a hasher that is used again
-/
namespace Fpki.Hasher

/-- The specification has no hasher: a variable is given the hash of the bytes, or a new variable is. -/
def meant (H : Bytes → Bytes) (vars : List Bytes) : Op → List Bytes
  | .hash v d => vars.set v (H (d.val vars))
  | .hashString v d => vars.set v (H (d.val vars))
  | .hashCopy d => vars ++ [H (d.val vars)]
  | .hashStringCopy d => vars ++ [H (d.val vars)]

theorem hash_eq (H : Bytes → Bytes) (hH : ∀ b, (H b).length = 32) (buf out data : Bytes) : hash H buf out data = some (data, H data) := by
  have h1 : (appendTo out 0 (H data)).1 = H data := by
    unfold appendTo; split <;> simp
  have h2 : (H data).take 32 = H data := by rw [← hH data]; exact List.take_length
  simp [hash, h1, toArray, hH, h2]

/-- **C208**: whatever was hashed before with a hasher, and whatever calls are made on it, none panics, and they have the effect of hashing each argument by
itself: the variable given, or the new one, has the hash of the bytes that the argument had at the time of the call (also if these are bytes of that
variable), and all other variables are as they were. -/
theorem C208_calls (H : Bytes → Bytes) (hH : ∀ b, (H b).length = 32) (ops : List Op) : ∀ m : Mem,
    ∃ m', calls H m ops = some m' ∧ m'.vars = ops.foldl (meant H) m.vars := by
  induction ops with
  | nil => exact fun m => ⟨m, rfl, rfl⟩
  | cons o os ih =>
    intro m
    have h : ∃ m1, call H m o = some m1 ∧ m1.vars = meant H m.vars o := by
      cases o <;> simp [call, hash_eq H hH, meant]
    obtain ⟨m1, h1, h2⟩ := h
    obtain ⟨m', h3, h4⟩ := ih m1
    exact ⟨m', by simp [calls, h1, h3], by simp [h4, h2]⟩

/-- **C208** (in the middle of a history): after any calls, a call of HashStringCopy or HashCopy gives the hash of its argument, and what earlier calls have
returned is as it was. -/
theorem C208_copy (H : Bytes → Bytes) (hH : ∀ b, (H b).length = 32) (before : List Op) (m m1 : Mem) (h : calls H m before = some m1) (b : Bytes) :
    (∃ m2, calls H m (before ++ [.hashStringCopy (.lit b)]) = some m2 ∧ m2.vars = m1.vars ++ [H b]) ∧
    (∃ m2, calls H m (before ++ [.hashCopy (.lit b)]) = some m2 ∧ m2.vars = m1.vars ++ [H b]) := by
  obtain ⟨m', h1, h2⟩ := C208_calls H hH before m
  rw [h] at h1
  cases h1
  constructor
  · obtain ⟨m2, h3, h4⟩ := C208_calls H hH (before ++ [.hashStringCopy (.lit b)]) m
    exact ⟨m2, h3, by rw [h4, List.foldl_append, ← h2]; rfl⟩
  · obtain ⟨m2, h3, h4⟩ := C208_calls H hH (before ++ [.hashCopy (.lit b)]) m
    exact ⟨m2, h3, by rw [h4, List.foldl_append, ← h2]; rfl⟩

theorem foldl_pieces (data : List Bytes) : ∀ a : Bytes, data.foldl (fun buf d => buf ++ d) a = a ++ data.flatten := by
  induction data with
  | nil => simp
  | cons d ds ih => intro a; simp [ih]

/-- **C208**: `SHA256Hash` and `SHA256Hash32Bytes` of several pieces are the hash of the pieces put together, and never panic. -/
theorem C208_pieces (H : Bytes → Bytes) (hH : ∀ b, (H b).length = 32) (data : List Bytes) :
    sha256Hash H data = H data.flatten ∧ sha256Hash32Bytes H data = some (H data.flatten) := by
  have h : sha256Hash H data = H data.flatten := by simp [sha256Hash, foldl_pieces]
  have h2 : (H data.flatten).take 32 = H data.flatten := by rw [← hH data.flatten]; exact List.take_length
  exact ⟨h, by simp [sha256Hash32Bytes, h, toArray, hH, h2]⟩

/-- **C208**: pieces that are cut differently have the same hash. Callers that hash several fields must make sure that the fields can be told apart: with
fields of the same lengths (and no collision of these two inputs) they can. -/
theorem C208_fixed_lengths (H : Bytes → Bytes) (xs ys : List Bytes) (hc : H xs.flatten = H ys.flatten → xs.flatten = ys.flatten) (hl : xs.map List.length = ys.map List.length)
    (h : sha256Hash H xs = sha256Hash H ys) : xs = ys := by
  have h1 : xs.flatten = ys.flatten := hc (by simpa [sha256Hash, foldl_pieces] using h)
  clear h hc
  induction xs generalizing ys with
  | nil => cases ys <;> simp_all
  | cons x xs ih =>
    cases ys with
    | nil => simp at hl
    | cons y ys =>
      simp only [List.map_cons, List.cons.injEq] at hl
      simp only [List.flatten_cons] at h1
      obtain ⟨e1, e2⟩ := List.append_inj h1 hl.1
      rw [e1, ih ys hl.2 e2]

/-- A concrete case: a toy hash of 32 bytes; a variable is hashed onto itself, twice, and copies are taken in between. -/
def toy : Bytes → Bytes := fun b => (List.range 32).map fun i => (b.getD i 7) + 1

example : (calls toy ⟨[9, 9], [], [List.replicate 32 0]⟩
    [.hash 0 (.part 0 0 2), .hashCopy (.part 0 1 3), .hashString 0 (.lit [5]), .hashStringCopy (.part 1 0 1)]).map (fun m => m.vars.map (·.take 3)) =
    some [[6, 8, 8], [2, 9, 8], [3, 8, 8]] := by decide +kernel
example : ∀ b, (toy b).length = 32 := by simp [toy]
/-- The lengths matter: the same bytes, cut differently. -/
example : sha256Hash toy [[1], [2, 3]] = sha256Hash toy [[1, 2], [3]] := by decide +kernel

end Fpki.Hasher
