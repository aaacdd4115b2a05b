import Verif.Lemmas.DbConf
/-!
# C83: The DB connection is the one that was configured

`newConfig env mods`: the configuration that the modifiers make in the environment `env`. `connect`: the (changed) configuration and what the MySQL driver
connects to.
-/
namespace Fpki.DbConf
open Fpki.Domain (asc)

/-! ## Specification -/

/-- What the documentation of a modifier says it sets. -/
def setBy (env : Bytes → Option Bytes) (k : Bytes) : Mod → Option Bytes
  | .withDB n => if k = keyDBName then some n else none
  | .withUser u => if k = keyUser then some u else none
  | .withLocalSocket p => if k = keyLocalSocket then some p else none
  | .withDefaults => defaults.get k
  | .withEnvironment => (envDefaults.get k).map fun d => (env k).getD d

/-- The last modifier wins; the name of the DB is `fpki` if none sets it. -/
def setting (env : Bytes → Option Bytes) (k : Bytes) (mods : List Mod) : Option Bytes :=
  (mods.reverse.findSome? (setBy env k)).or (if k = keyDBName then some (asc "fpki") else none)

/-- The keys that say what to connect to; all others are parameters. -/
def connectionKeys : List Bytes := [keyUser, keyPassword, keyHost, keyPort, keyLocalSocket, keyDBName]

def parameters (c : Config) : List (Bytes × Bytes) := c.values.filter fun p => !connectionKeys.contains p.1

/-- The names of the parameters are words. -/
def wordParams (c : Config) : Prop := ∀ p ∈ parameters c, ∀ x ∈ p.1, unreserved x = true

/-- Letters, digits and `-_.~!$&'()*+,;=[]`. -/
def plain (c : Byte) : Bool := unreserved c || (asc "!$&'()*+,;=[]").contains c

/-! ## Settings -/

/-- C83: the value of every key is the one that the last modifier which sets it gives it. -/
theorem C83_settings (env : Bytes → Option Bytes) (mods : List Mod) (k : Bytes) : (newConfig env mods).values.get k = setting env k mods := by
  have key : ∀ (mods : List Mod) (c : Config),
      (mods.foldl (fun c m => m.apply env c) c).values.get k = (mods.reverse.findSome? (setBy env k)).or (c.values.get k) := by
    intro mods
    induction mods with
    | nil => intro c; rfl
    | cons m mods ih =>
      intro c
      rw [List.foldl_cons, ih, List.reverse_cons, List.findSome?_append, Option.or_assoc]
      congr 1
      have hd : (defaults.map Prod.fst).Nodup := by decide +kernel
      have he : (envDefaults.map Prod.fst).Nodup := by decide +kernel
      cases m with
      | withDB n => simp only [Mod.apply, get_put, setBy, List.findSome?_cons, List.findSome?_nil]; split <;> simp
      | withUser n => simp only [Mod.apply, get_put, setBy, List.findSome?_cons, List.findSome?_nil]; split <;> simp
      | withLocalSocket n => simp only [Mod.apply, get_put, setBy, List.findSome?_cons, List.findSome?_nil]; split <;> simp
      | withDefaults =>
        simp only [Mod.apply, setBy, List.findSome?_cons, List.findSome?_nil]
        rw [get_foldl defaults (fun _ v => v) hd]
        cases defaults.get k <;> simp
      | withEnvironment =>
        simp only [Mod.apply, setBy, List.findSome?_cons, List.findSome?_nil]
        rw [get_foldl envDefaults (fun k v => (env k).getD v) he]
        cases envDefaults.get k <;> simp
  rw [newConfig, key, setting]
  congr 1
  by_cases h : k = keyDBName
  · subst h; decide
  · have h2 : ¬ keyDBName = k := fun e => h e.symm
    simp [Map.get, h, h2]

/-- A consequence: a user that is set before the environment is read is not used, whether or not the environment has one. -/
theorem C83_with_user_order_violated (user : Bytes) (hu : user ≠ asc "root") :
    setting (fun _ => none) keyUser [.withUser user, .withEnvironment] ≠ some user ∧
    setting (fun _ => none) keyUser [.withEnvironment, .withUser user] = some user := by
  have h1 : setting (fun _ => none) keyUser [.withUser user, .withEnvironment] = some (asc "root") := by
    simp only [setting, List.reverse_cons, List.reverse_nil, List.nil_append, List.singleton_append, List.findSome?_cons, setBy]
    have : (envDefaults.get keyUser) = some (asc "root") := by decide
    rw [this]; rfl
  refine ⟨?_, ?_⟩
  · rw [h1]; intro e; exact hu (Option.some.inj e).symm
  · simp [setting, setBy]

/-! ## The connection -/

theorem parseDSN_values (v : Map) : (parseDSN v).2.del keyDBName = v.filter fun p => !connectionKeys.contains p.1 := by
  simp only [parseDSN, Map.del, List.filter_filter]
  congr 1
  funext p
  simp only [connectionKeys, List.contains_cons, List.contains_nil, Bool.or_false, Bool.not_or]
  cases (p.1 == keyUser) <;> cases (p.1 == keyPassword) <;> cases (p.1 == keyHost) <;> cases (p.1 == keyPort) <;> cases (p.1 == keyLocalSocket) <;>
    cases (p.1 == keyDBName) <;> rfl

theorem parseDSN_db (v : Map) : (parseDSN v).2.val keyDBName = v.val keyDBName := by
  simp only [parseDSN, Map.val, get_del]
  rw [if_neg (by decide), if_neg (by decide), if_neg (by decide), if_neg (by decide), if_neg (by decide)]

theorem dsnText_ne (v : Map) : dsnText v ≠ [] := by
  unfold dsnText
  split <;> simp [asc]

/-- From the text of the DSN to the connection. -/
theorem connect_of {c : Config} (hd : c.dsn = []) {s up net addr db : Bytes} (hs : dsnText c.values = s)
    (hform : s = up ++ [64] ++ net ++ [40] ++ addr ++ [41, 47] ++ db)
    (hu : ∃ u, urlParse s = .ok u ∧ u.rawQuery = [] ∧ ∀ q, { u with rawQuery := q }.string = s ++ (if q = [] then [] else 63 :: q))
    (hn : (40 : Byte) ∉ net) (hna : (64 : Byte) ∉ net) (ha : (64 : Byte) ∉ addr)
    (hd1 : (47 : Byte) ∉ db) (hd2 : (63 : Byte) ∉ db) (hd3 : (37 : Byte) ∉ db) (hk : wordParams c) :
    (connect c).2 = .connected (normalize ⟨(cut 58 up).1, (cut 58 up).2.getD [], net, addr, db, sorted (parameters c)⟩) := by
  obtain ⟨u, h1, h2, h3⟩ := hu
  have hv : (parseDSN c.values).2.del keyDBName = parameters c := parseDSN_values c.values
  have ht : (parseDSN c.values).1 = s := hs
  simp only [connect, if_pos hd, dsnString, ht, h1, h2, parseQuery_nil, List.nil_append, hv, h3]
  rw [hform, driverParse_of hn hna ha hd1 hd2 hd3 hk]
  rfl

/-- C83 (partial): with a local socket, the connection goes to that socket, as the user and to the DB of the configuration, with the parameters of the
configuration. (Missing: names with other characters.) The password is the empty one whatever is configured: `C83_password_ignored_violated`. -/
theorem C83_socket_partial {c : Config} (hd : c.dsn = []) {path : Bytes} (hp : c.values.get keyLocalSocket = some path)
    (hu : ∀ x ∈ c.values.val keyUser, plain x = true ∨ x = 64) (hpath : ∀ x ∈ path, plain x = true ∨ x = 47 ∨ x = 58) (hp0 : path.head? = some 47)
    (hdb : ∀ x ∈ c.values.val keyDBName, plain x = true ∨ x = 58 ∨ x = 64) (hk : wordParams c) :
    ∃ ps, ps.Perm (parameters c) ∧ (connect c).2 = .connected ⟨c.values.val keyUser, [], asc "unix", path, c.values.val keyDBName, ps⟩ := by
  have pp : ∀ x, plain x = true → pathChar x = true := by
    intro x hx
    simp only [plain, pathChar, Bool.or_eq_true, List.contains_iff_mem] at hx ⊢
    rcases hx with hx | hx
    · exact .inl hx
    · have hsub : ∀ x ∈ asc "!$&'()*+,;=[]", x ∈ asc "!$&'()*+,/;=:@[]" := by decide
      exact .inr (hsub x hx)
  have pn : ∀ x, plain x = true → x ≠ 47 ∧ x ≠ 58 ∧ x ≠ 64 ∧ x ≠ 63 ∧ x ≠ 37 := by
    intro x hx; refine ⟨?_, ?_, ?_, ?_, ?_⟩ <;> (rintro rfl; revert hx; decide)
  have hu58 : (58 : Byte) ∉ c.values.val keyUser := by
    intro h; rcases hu _ h with h | h
    · exact (pn _ h).2.1 rfl
    · revert h; decide
  have hu47 : (47 : Byte) ∉ c.values.val keyUser := by
    intro h; rcases hu _ h with h | h
    · exact (pn _ h).1 rfl
    · revert h; decide
  obtain ⟨p', rfl⟩ : ∃ p', path = 47 :: p' := by
    cases path with
    | nil => simp at hp0
    | cons x r => simp at hp0; exact ⟨r, by rw [hp0]⟩
  have hform : dsnText c.values = c.values.val keyUser ++ [64] ++ asc "unix" ++ [40] ++ (47 :: p') ++ [41, 47] ++ c.values.val keyDBName := by
    have e : asc "@unix(" = [64] ++ asc "unix" ++ [40] := by decide
    have e2 : asc ")/" = [41, 47] := by decide
    simp only [dsnText, hp, e, e2, List.append_assoc]
  have e3 : dsnText c.values = (c.values.val keyUser ++ [64] ++ asc "unix" ++ [40]) ++ 47 :: (p' ++ [41, 47] ++ c.values.val keyDBName) := by
    rw [hform]; simp
  have hcut : (cut 47 (dsnText c.values)).1 = c.values.val keyUser ++ [64] ++ asc "unix" ++ [40] := by
    rw [e3, cut_some]
    simp only [List.mem_append, not_or]
    exact ⟨⟨⟨hu47, by decide⟩, by decide⟩, by decide⟩
  refine ⟨sorted (parameters c), sorted_perm _, ?_⟩
  rw [connect_of hd rfl hform ?_ (by decide) (by decide) ?_ ?_ ?_ ?_ hk]
  · rw [cut_none hu58]
    simp only [Option.getD_none, normalize]
    have h1 : ¬ asc "unix" = [] := by decide
    have h2 : ¬ asc "unix" = asc "tcp" := by decide
    simp [h1, h2]
  · refine url_path ?_ ?_ ?_ ?_
    · rw [hform]
      intro x hx
      simp only [List.mem_append] at hx
      rcases hx with (((((hx | hx) | hx) | hx) | hx) | hx) | hx
      · rcases hu x hx with h | h
        · exact pp x h
        · subst h; decide
      · have : x = 64 := by simpa using hx
        subst this; decide
      · have hsub : ∀ x ∈ asc "unix", pathChar x = true := by decide
        exact hsub x hx
      · have : x = 40 := by simpa using hx
        subst this; decide
      · rcases hpath x hx with h | h | h
        · exact pp x h
        · subst h; decide
        · subst h; decide
      · have hsub : ∀ x ∈ ([41, 47] : Bytes), pathChar x = true := by decide
        exact hsub x hx
      · rcases hdb x hx with h | h | h
        · exact pp x h
        · subst h; decide
        · subst h; decide
    · rw [hform]
      intro h
      cases hv : c.values.val keyUser with
      | nil => rw [hv] at h; simp at h
      | cons a r => rw [hv] at h hu47; simp at h; exact hu47 (by simp [h])
    · rw [hcut]
      simp only [List.mem_append, not_or]
      exact ⟨⟨⟨hu58, by decide⟩, by decide⟩, by decide⟩
    · rw [hform]
      have : c.values.val keyUser ++ [64] ++ asc "unix" ++ [40] ++ (47 :: p') ++ [41, 47] ++ c.values.val keyDBName =
        c.values.val keyUser ++ 64 :: (asc "unix" ++ [40] ++ (47 :: p') ++ [41, 47] ++ c.values.val keyDBName) := by simp
      rw [this]; exact getScheme_none hu58
  · intro h; rcases hpath _ h with h | h | h
    · exact (pn _ h).2.2.1 rfl
    · revert h; decide
    · revert h; decide
  · intro h; rcases hdb _ h with h | h | h
    · exact (pn _ h).1 rfl
    · revert h; decide
    · revert h; decide
  · intro h; rcases hdb _ h with h | h | h
    · exact (pn _ h).2.2.2.1 rfl
    · revert h; decide
    · revert h; decide
  · intro h; rcases hdb _ h with h | h | h
    · exact (pn _ h).2.2.2.2 rfl
    · revert h; decide
    · revert h; decide

/-- The address of a host: with the default port of MySQL if none is configured. -/
def address (host port : Bytes) : Bytes := host ++ [58] ++ (if port = [] then asc "3306" else port)

theorem normalize_tcp {host port user pw db : Bytes} {ps : List (Bytes × Bytes)} (hh : host ≠ []) (hc : (58 : Byte) ∉ host) :
    normalize ⟨user, pw, asc "tcp", host ++ (if port ≠ [] then [58] ++ port else []), db, ps⟩ = ⟨user, pw, asc "tcp", address host port, db, ps⟩ := by
  have h1 : ¬ asc "tcp" = [] := by decide
  by_cases hp : port = []
  · subst hp
    have e : asc ":3306" = [58] ++ asc "3306" := by decide
    simp [normalize, h1, hh, hc, address, e]
  · simp [normalize, h1, hh, hc, hp, address]

/-- C83 (partial): over TCP without a password, and without a port: the connection goes to port 3306 of the host, as the user and to the DB of the
configuration. (Missing: names with other characters; a port: `C83_port_violated`.) -/
theorem C83_tcp_partial {c : Config} (hd : c.dsn = []) (hp : c.values.get keyLocalSocket = none) (hpw : c.values.val keyPassword = [])
    (hport : c.values.val keyPort = []) (hu : ∀ x ∈ c.values.val keyUser, plain x = true ∨ x = 64) (hh : ∀ x ∈ c.values.val keyHost, plain x = true)
    (hh0 : c.values.val keyHost ≠ [])
    (hdb : ∀ x ∈ c.values.val keyDBName, plain x = true ∨ x = 58 ∨ x = 64) (hk : wordParams c) :
    ∃ ps, ps.Perm (parameters c) ∧
      (connect c).2 = .connected ⟨c.values.val keyUser, [], asc "tcp", address (c.values.val keyHost) [], c.values.val keyDBName, ps⟩ := by
  have pp : ∀ x, plain x = true → pathChar x = true := by
    intro x hx
    simp only [plain, pathChar, Bool.or_eq_true, List.contains_iff_mem] at hx ⊢
    rcases hx with hx | hx
    · exact .inl hx
    · have hsub : ∀ x ∈ asc "!$&'()*+,;=[]", x ∈ asc "!$&'()*+,/;=:@[]" := by decide
      exact .inr (hsub x hx)
  have pn : ∀ x, plain x = true → x ≠ 47 ∧ x ≠ 58 ∧ x ≠ 64 ∧ x ≠ 63 ∧ x ≠ 37 := by
    intro x hx; refine ⟨?_, ?_, ?_, ?_, ?_⟩ <;> (rintro rfl; revert hx; decide)
  have hu58 : (58 : Byte) ∉ c.values.val keyUser := by
    intro h; rcases hu _ h with h | h
    · exact (pn _ h).2.1 rfl
    · revert h; decide
  have hu47 : (47 : Byte) ∉ c.values.val keyUser := by
    intro h; rcases hu _ h with h | h
    · exact (pn _ h).1 rfl
    · revert h; decide
  have hh58 : (58 : Byte) ∉ c.values.val keyHost := fun h => (pn _ (hh _ h)).2.1 rfl
  have hh47 : (47 : Byte) ∉ c.values.val keyHost := fun h => (pn _ (hh _ h)).1 rfl
  have hform : dsnText c.values = c.values.val keyUser ++ [64] ++ asc "tcp" ++ [40] ++
      (c.values.val keyHost ++ (if ([] : Bytes) ≠ [] then [58] ++ [] else [])) ++ [41, 47] ++ c.values.val keyDBName := by
    have e : asc "@tcp(" = [64] ++ asc "tcp" ++ [40] := by decide
    have e2 : asc ")/" = [41, 47] := by decide
    simp [dsnText, hp, hpw, hport, e, e2, List.append_assoc]
  have e3 : dsnText c.values = (c.values.val keyUser ++ [64] ++ asc "tcp" ++ [40] ++ c.values.val keyHost ++ [41]) ++ 47 :: c.values.val keyDBName := by
    rw [hform]; simp
  have hcut : (cut 47 (dsnText c.values)).1 = c.values.val keyUser ++ [64] ++ asc "tcp" ++ [40] ++ c.values.val keyHost ++ [41] := by
    rw [e3, cut_some]
    simp only [List.mem_append, not_or]
    exact ⟨⟨⟨⟨⟨hu47, by decide⟩, by decide⟩, by decide⟩, hh47⟩, by decide⟩
  refine ⟨sorted (parameters c), sorted_perm _, ?_⟩
  rw [connect_of hd rfl hform ?_ (by decide) (by decide) ?_ ?_ ?_ ?_ hk]
  · rw [cut_none hu58, Option.getD_none, normalize_tcp hh0 hh58]
  · refine url_path ?_ ?_ ?_ ?_
    · rw [e3]
      intro x hx
      simp only [List.mem_append, List.mem_cons] at hx
      rcases hx with (((((hx | hx) | hx) | hx) | hx) | hx) | hx | hx
      · rcases hu x hx with h | h
        · exact pp x h
        · subst h; decide
      · have : x = 64 := by simpa using hx
        subst this; decide
      · have hsub : ∀ x ∈ asc "tcp", pathChar x = true := by decide
        exact hsub x hx
      · have : x = 40 := by simpa using hx
        subst this; decide
      · exact pp x (hh x hx)
      · have : x = 41 := by simpa using hx
        subst this; decide
      · subst hx; decide
      · rcases hdb x hx with h | h | h
        · exact pp x h
        · subst h; decide
        · subst h; decide
    · rw [hform]
      intro h
      cases hv : c.values.val keyUser with
      | nil => rw [hv] at h; simp at h
      | cons a r => rw [hv] at h hu47; simp at h; exact hu47 (by simp [h])
    · rw [hcut]
      simp only [List.mem_append, not_or]
      exact ⟨⟨⟨⟨⟨hu58, by decide⟩, by decide⟩, by decide⟩, hh58⟩, by decide⟩
    · have : dsnText c.values = c.values.val keyUser ++ 64 :: (asc "tcp" ++ [40] ++ c.values.val keyHost ++ [41] ++ 47 :: c.values.val keyDBName) := by
        rw [e3]; simp
      rw [this]; exact getScheme_none hu58
  · simp only [ne_eq, not_true, if_false, List.append_nil]
    exact fun h => (pn _ (hh _ h)).2.2.1 rfl
  · intro h; rcases hdb _ h with h | h | h
    · exact (pn _ h).1 rfl
    · revert h; decide
    · revert h; decide
  · intro h; rcases hdb _ h with h | h | h
    · exact (pn _ h).2.2.2.1 rfl
    · revert h; decide
    · revert h; decide
  · intro h; rcases hdb _ h with h | h | h
    · exact (pn _ h).2.2.2.2 rfl
    · revert h; decide
    · revert h; decide

/-- C83 (partial): over TCP with a password of any characters except control characters, `?`, `#` (and not starting with `/`): user, password, host, port, DB
and parameters are those of the configuration. The user must be of lower case letters, digits and `+-.`: `C83_upper_case_user_violated`,
`C83_underscore_user_violated`. -/
theorem C83_password_partial {c : Config} (hd : c.dsn = []) (hp : c.values.get keyLocalSocket = none) {c0 : Byte} {u : Bytes}
    (hu : c.values.val keyUser = c0 :: u) (hc0 : 97 ≤ c0.toNat ∧ c0.toNat ≤ 122) (hus : ∀ x ∈ u, schemeChar x = true)
    (hpw : c.values.val keyPassword ≠ []) (hpc : ∀ x ∈ c.values.val keyPassword, opaqueChar x = true) (hp0 : (c.values.val keyPassword).head? ≠ some 47)
    (hh0 : c.values.val keyHost ≠ []) (hh : ∀ x ∈ c.values.val keyHost, opaqueChar x = true ∧ x ≠ 58 ∧ x ≠ 64)
    (hport : ∀ x ∈ c.values.val keyPort, opaqueChar x = true ∧ x ≠ 64)
    (hdb : ∀ x ∈ c.values.val keyDBName, opaqueChar x = true ∧ x ≠ 47 ∧ x ≠ 37) (hk : wordParams c) :
    ∃ ps, ps.Perm (parameters c) ∧ (connect c).2 = .connected ⟨c.values.val keyUser, c.values.val keyPassword, asc "tcp",
      address (c.values.val keyHost) (c.values.val keyPort), c.values.val keyDBName, ps⟩ := by
  have o63 : ∀ x, opaqueChar x = true → x ≠ 63 := by intro x hx; rintro rfl; revert hx; decide
  have hform : dsnText c.values = (c.values.val keyUser ++ [58] ++ c.values.val keyPassword) ++ [64] ++ asc "tcp" ++ [40] ++
      (c.values.val keyHost ++ (if c.values.val keyPort ≠ [] then [58] ++ c.values.val keyPort else [])) ++ [41, 47] ++ c.values.val keyDBName := by
    have e : asc "@tcp(" = [64] ++ asc "tcp" ++ [40] := by decide
    have e2 : asc ")/" = [41, 47] := by decide
    simp [dsnText, hp, hpw, e, e2, List.append_assoc]
  have hu58 : (58 : Byte) ∉ c.values.val keyUser := by
    rw [hu]
    intro h
    rcases List.mem_cons.mp h with h | h
    · have := hc0.2; rw [← h] at hc0; revert hc0; decide
    · have := hus _ h; revert this; decide
  refine ⟨sorted (parameters c), sorted_perm _, ?_⟩
  rw [connect_of hd rfl hform ?_ (by decide) (by decide) ?_ ?_ ?_ ?_ hk]
  · have : c.values.val keyUser ++ [58] ++ c.values.val keyPassword = c.values.val keyUser ++ 58 :: c.values.val keyPassword := by simp
    rw [this, cut_some hu58, Option.getD_some, normalize_tcp hh0 (fun h => (hh _ h).2.1 rfl)]
  · have e : dsnText c.values = c0 :: u ++ 58 :: (c.values.val keyPassword ++ [64] ++ asc "tcp" ++ [40] ++
      (c.values.val keyHost ++ (if c.values.val keyPort ≠ [] then [58] ++ c.values.val keyPort else [])) ++ [41, 47] ++ c.values.val keyDBName) := by
      rw [hform, hu]; simp
    rw [e]
    refine url_opaque hc0 hus ?_ ?_ (by simp)
    · intro x hx
      simp only [List.mem_append] at hx
      rcases hx with (((((hx | hx) | hx) | hx) | hx) | hx) | hx
      · exact hpc x hx
      · have : x = 64 := by simpa using hx
        subst this; decide
      · have hsub : ∀ x ∈ asc "tcp", opaqueChar x = true := by decide
        exact hsub x hx
      · have : x = 40 := by simpa using hx
        subst this; decide
      · rcases hx with hx | hx
        · exact (hh x hx).1
        · split at hx
          · rcases List.mem_append.mp hx with hx | hx
            · have : x = 58 := by simpa using hx
              subst this; decide
            · exact (hport x hx).1
          · simp at hx
      · have hsub : ∀ x ∈ ([41, 47] : Bytes), opaqueChar x = true := by decide
        exact hsub x hx
      · exact (hdb x hx).1
    · cases hv : c.values.val keyPassword with
      | nil => exact absurd hv hpw
      | cons a r => rw [hv] at hp0; simpa using hp0
  · simp only [List.mem_append, not_or]
    refine ⟨fun h => (hh _ h).2.2 rfl, ?_⟩
    split
    · simp only [List.mem_append, List.mem_singleton, not_or]
      exact ⟨by decide, fun h => (hport _ h).2 rfl⟩
    · simp
  · exact fun h => (hdb _ h).2.1 rfl
  · exact fun h => o63 _ (hdb _ h).1 rfl
  · exact fun h => (hdb _ h).2.2 rfl

/-- C83: connecting again with the same configuration (the map server does, mapserver.go:87-93) makes the same connection, and changes the configuration no
more. -/
theorem C83_connect_again (c : Config) : connect (connect c).1 = connect c := by
  by_cases h : c.dsn = []
  · simp only [connect, if_pos h]
    rw [if_neg]
    exact dsnText_ne c.values
  · simp only [connect, if_neg h]

/-- C83: after `Connect` the configuration has the name of the DB. -/
theorem C83_db_name {c : Config} (h : c.dsn = []) : (connect c).1.dbName = c.values.val keyDBName := by
  simp only [connect, if_pos h, parseDSN_db]

/-! ## The programs -/

/-- The parameters of `WithDefaults`. -/
def defaultParameters : List (Bytes × Bytes) :=
  [(asc "autocommit", asc "true"), (asc "collation", asc "binary"), (asc "interpolateParams", asc "true"), (asc "maxAllowedPacket", asc "1073741824"),
   (asc "parseTime", asc "true"), (asc "transaction_isolation", asc "'READ-UNCOMMITTED'")]

theorem ingest_values_aux (db user pw host port user' pw' host' port' : Bytes) {kd ku kp kh ko ks k1 k2 k3 k4 k5 k6 v1 v2 v3 v4 v5 v6 d s : Bytes}
   (h : [kd,ku,kp,kh,ko,ks,k1,k2,k3,k4,k5,k6].Pairwise (fun a b => (a == b) = false ∧ (b == a) = false)) :
   (((((([(ku, user), (kp, pw), (kh, host), (ko, port), (k1,v1),(k2,v2),(k3,v3),(k4,v4),(k5,v5),(k6,v6)] : Map).foldl (fun m p => m.put p.1 p.2) (Map.put [(kd, d)] kd db)).put ku user').put kp pw').put kh host').put ko port').put ks s
   = [(kd, db), (k1,v1),(k2,v2),(k3,v3),(k4,v4),(k5,v5),(k6,v6), (ku, user'), (kp, pw'), (kh, host'), (ko, port'), (ks, s)] := by
  simp only [List.pairwise_cons, List.forall_mem_cons, List.not_mem_nil, false_imp_iff, implies_true, and_true, List.Pairwise.nil] at h
  simp only [Map.put, Map.del, List.foldl_cons, List.foldl_nil, List.filter_cons, List.filter_nil, List.nil_append, List.cons_append, beq_self_eq_true,
    Bool.not_true, Bool.not_false, if_true, Bool.false_eq_true, if_false, h]

/-- The configuration that ingest makes, as a list. -/
theorem ingest_values (env : Bytes → Option Bytes) (db : Bytes) : (newConfig env (ingestMods db)).values =
    [(keyDBName, db), (asc "interpolateParams", asc "true"), (asc "collation", asc "binary"), (asc "maxAllowedPacket", asc "1073741824"),
     (asc "parseTime", asc "true"), (asc "transaction_isolation", asc "'READ-UNCOMMITTED'"), (asc "autocommit", asc "true"),
     (keyUser, (env keyUser).getD (asc "root")), (keyPassword, (env keyPassword).getD []), (keyHost, (env keyHost).getD (asc "127.0.0.1")),
     (keyPort, (env keyPort).getD []), (keyLocalSocket, asc "/var/run/mysqld/mysqld.sock")] := by
  simp only [newConfig, ingestMods, List.foldl_cons, List.foldl_nil, Mod.apply, envDefaults, defaults, List.cons_append, List.nil_append]
  exact ingest_values_aux db (asc "root") [] (asc "127.0.0.1") [] _ _ _ _ (by decide +kernel)

theorem ingest_filter (db user pw host port : Bytes) :
    ([(keyDBName, db), (asc "interpolateParams", asc "true"), (asc "collation", asc "binary"), (asc "maxAllowedPacket", asc "1073741824"),
     (asc "parseTime", asc "true"), (asc "transaction_isolation", asc "'READ-UNCOMMITTED'"), (asc "autocommit", asc "true"),
     (keyUser, user), (keyPassword, pw), (keyHost, host), (keyPort, port), (keyLocalSocket, asc "/var/run/mysqld/mysqld.sock")] : Map).filter
      (fun p => !connectionKeys.contains p.1) =
    [(asc "interpolateParams", asc "true"), (asc "collation", asc "binary"), (asc "maxAllowedPacket", asc "1073741824"), (asc "parseTime", asc "true"),
     (asc "transaction_isolation", asc "'READ-UNCOMMITTED'"), (asc "autocommit", asc "true")] := by
  have yes : ∀ k ∈ [keyDBName, keyUser, keyPassword, keyHost, keyPort, keyLocalSocket], connectionKeys.contains k = true := by decide +kernel
  have no : ∀ k ∈ [asc "interpolateParams", asc "collation", asc "maxAllowedPacket", asc "parseTime", asc "transaction_isolation", asc "autocommit"],
      connectionKeys.contains k = false := by decide +kernel
  simp only [List.forall_mem_cons] at yes no
  simp only [List.filter_cons, List.filter_nil, yes, no, Bool.not_true, Bool.not_false, if_true, Bool.false_eq_true, if_false]

theorem ingest_parameters (env : Bytes → Option Bytes) (db : Bytes) : sorted (parameters (newConfig env (ingestMods db))) = defaultParameters := by
  have : parameters (newConfig env (ingestMods db)) = [(asc "interpolateParams", asc "true"), (asc "collation", asc "binary"),
      (asc "maxAllowedPacket", asc "1073741824"), (asc "parseTime", asc "true"), (asc "transaction_isolation", asc "'READ-UNCOMMITTED'"),
      (asc "autocommit", asc "true")] := by
    unfold parameters
    rw [ingest_values]
    exact ingest_filter ..
  rw [this]
  decide +kernel

/-- C83: ingest connects over the local socket, as `MYSQL_USER` (root if unset), to the DB given on the command line, with the parameters of `WithDefaults`:
among them that the transactions read uncommitted data and that each statement is a transaction. -/
theorem C83_ingest_partial (env : Bytes → Option Bytes) (db : Bytes) (hdb : ∀ x ∈ db, plain x = true ∨ x = 58 ∨ x = 64)
    (hu : ∀ x ∈ (env keyUser).getD (asc "root"), plain x = true ∨ x = 64) :
    ∃ ps, ps.Perm defaultParameters ∧ (connect (newConfig env (ingestMods db))).2 =
      .connected ⟨(env keyUser).getD (asc "root"), [], asc "unix", asc "/var/run/mysqld/mysqld.sock", db, ps⟩ := by
  have hv := ingest_values env db
  have h1 : (newConfig env (ingestMods db)).values.val keyUser = (env keyUser).getD (asc "root") := by rw [hv]; rfl
  have h2 : (newConfig env (ingestMods db)).values.val keyDBName = db := by rw [hv]; rfl
  have h3 : (newConfig env (ingestMods db)).values.get keyLocalSocket = some (asc "/var/run/mysqld/mysqld.sock") := by rw [hv]; rfl
  obtain ⟨ps, hps, h⟩ := C83_socket_partial (c := newConfig env (ingestMods db)) rfl h3 (by rw [h1]; exact hu) (by decide) (by decide) (by rw [h2]; exact hdb) (by
    intro p hp
    have hp' := (sorted_perm _).mem_iff.mpr hp
    rw [ingest_parameters] at hp'
    have : ∀ p ∈ defaultParameters, ∀ x ∈ p.1, unreserved x = true := by decide
    exact this p hp')
  refine ⟨ps, ?_, by rw [h, h1, h2]⟩
  exact hps.trans ((sorted_perm _).symm.trans (by rw [ingest_parameters]))

/-- C83 is violated: in ingest `MYSQL_PASSWORD`, `MYSQL_HOST` and `MYSQL_PORT` have no influence on the connection (the
socket comes last, as in the sample configuration of the map server). In particular a user with a password cannot be used. -/
theorem C83_password_ignored_violated (env env' : Bytes → Option Bytes) (db : Bytes) (h : env keyUser = env' keyUser) :
    (connect (newConfig env (ingestMods db))).2 = (connect (newConfig env' (ingestMods db))).2 := by
  have e1 : dsnText (newConfig env (ingestMods db)).values = dsnText (newConfig env' (ingestMods db)).values := by
    have a1 : (newConfig env (ingestMods db)).values.get keyLocalSocket = some (asc "/var/run/mysqld/mysqld.sock") := by rw [ingest_values]; rfl
    have a2 : (newConfig env' (ingestMods db)).values.get keyLocalSocket = some (asc "/var/run/mysqld/mysqld.sock") := by rw [ingest_values]; rfl
    have b1 : (newConfig env (ingestMods db)).values.val keyUser = (env keyUser).getD (asc "root") := by rw [ingest_values]; rfl
    have b2 : (newConfig env' (ingestMods db)).values.val keyUser = (env' keyUser).getD (asc "root") := by rw [ingest_values]; rfl
    have c1 : (newConfig env (ingestMods db)).values.val keyDBName = db := by rw [ingest_values]; rfl
    have c2 : (newConfig env' (ingestMods db)).values.val keyDBName = db := by rw [ingest_values]; rfl
    simp only [dsnText, a1, a2, b1, b2, c1, c2, h]
  have e2 : (parseDSN (newConfig env (ingestMods db)).values).2.del keyDBName = (parseDSN (newConfig env' (ingestMods db)).values).2.del keyDBName := by
    rw [parseDSN_values, parseDSN_values, ingest_values, ingest_values, ingest_filter, ingest_filter]
  have d0 : ∀ env, (newConfig env (ingestMods db)).dsn = [] := by
    intro env
    simp only [newConfig, ingestMods, List.foldl_cons, List.foldl_nil, Mod.apply]
  have d1 := d0 env
  have d2 := d0 env'
  have e3 : ∀ v : Map, (parseDSN v).1 = dsnText v := fun _ => rfl
  simp only [connect, d1, d2, if_true, dsnString, e2, e3, e1]

/-! ## Violations over TCP -/

/-- C83 is violated: without a password, every configuration with a port fails: `net/url` takes `root@tcp(127.0.0.1:3306)` for a path whose first segment has
a colon, which is an error. -/
theorem C83_port_violated {c : Config} (hd : c.dsn = []) (hp : c.values.get keyLocalSocket = none) (hpw : c.values.val keyPassword = [])
    (hport : c.values.val keyPort ≠ []) (hu : ∀ x ∈ c.values.val keyUser, x ≠ 47 ∧ x ≠ 58 ∧ x ≠ 63 ∧ x ≠ 35)
    (hh : ∀ x ∈ c.values.val keyHost, x ≠ 47 ∧ x ≠ 63 ∧ x ≠ 35) (hpc : ∀ x ∈ c.values.val keyPort, x ≠ 63 ∧ x ≠ 35)
    (hdb : ∀ x ∈ c.values.val keyDBName, x ≠ 63 ∧ x ≠ 35) : (connect c).2 = .error := by
  have hform : dsnText c.values = c.values.val keyUser ++ 64 :: (asc "tcp(" ++ c.values.val keyHost ++ 58 :: (c.values.val keyPort ++ asc ")/" ++ c.values.val keyDBName)) := by
    have e : asc "@tcp(" = 64 :: asc "tcp(" := by decide
    simp [dsnText, hp, hpw, hport, e]
  have no : ∀ b : Byte, (b = 63 ∨ b = 35) → b ∉ dsnText c.values := by
    intro b hb hm
    rw [hform] at hm
    simp only [List.mem_append, List.mem_cons] at hm
    rcases hm with hm | hm | (hm | hm) | hm | (hm | hm) | hm
    · have := hu b hm; rcases hb with h | h <;> subst h <;> simp at this
    · subst hm; revert hb; decide
    · have : ∀ x ∈ asc "tcp(", ¬ (x = 63 ∨ x = 35) := by decide
      exact this b hm hb
    · have := hh b hm; rcases hb with h | h <;> subst h <;> simp at this
    · subst hm; revert hb; decide
    · have := hpc b hm; rcases hb with h | h <;> subst h <;> simp at this
    · have : ∀ x ∈ asc ")/", ¬ (x = 63 ∨ x = 35) := by decide
      exact this b hm hb
    · have := hdb b hm; rcases hb with h | h <;> subst h <;> simp at this
  have hseg : (58 : Byte) ∈ (cut 47 (dsnText c.values)).1 := by
    have hpos : ∀ x ∈ c.values.val keyUser ++ 64 :: (asc "tcp(" ++ c.values.val keyHost), (x != 47) = true := by
      intro x hx
      simp only [List.mem_append, List.mem_cons] at hx
      simp only [bne_iff_ne, ne_eq]
      rcases hx with hx | hx | hx | hx
      · exact (hu x hx).1
      · subst hx; decide
      · have : ∀ x ∈ asc "tcp(", ¬ x = 47 := by decide
        exact this x hx
      · exact (hh x hx).1
    have e : dsnText c.values = (c.values.val keyUser ++ 64 :: (asc "tcp(" ++ c.values.val keyHost)) ++ 58 :: (c.values.val keyPort ++ asc ")/" ++ c.values.val keyDBName) := by
      rw [hform]; simp
    simp only [cut, e]
    rw [List.takeWhile_append_of_pos hpos]
    simp
  have hhead : (dsnText c.values).head? ≠ some 47 := by
    rw [hform]
    intro h
    cases hv : c.values.val keyUser with
    | nil => rw [hv] at h; simp at h
    | cons a r => rw [hv] at h hu; simp at h; exact (hu a (by simp)).1 h
  have hg : getScheme (dsnText c.values) = none := by
    rw [hform]; exact getScheme_none (fun h => (hu _ h).2.1 rfl)
  have hpar : urlParse (dsnText c.values) = .error := by
    have n35 : (dsnText c.values).contains 35 = false := by
      rw [Bool.eq_false_iff]; intro h; rw [List.contains_iff_mem] at h; exact no 35 (.inr rfl) h
    simp only [urlParse, n35, Bool.false_eq_true, if_false]
    split
    · rfl
    · simp only [hg, cut_none (no 63 (.inl rfl)), parseRest, hhead, if_false, ne_eq, not_true]
      rw [if_pos]
      rw [List.contains_iff_mem]; exact hseg
  have ht : (parseDSN c.values).1 = dsnText c.values := rfl
  simp only [connect, if_pos hd, dsnString, ht, hpar]

/-- The environment with the given variables. -/
def environment (vars : List (Bytes × Bytes)) : Bytes → Option Bytes := fun k => Map.get vars k

/-- C83 is violated: with a password, the user `Root` becomes `root`: MySQL tells the names of users apart by case. -/
theorem C83_upper_case_user_violated : ∃ t, (connect (newConfig (environment [(keyUser, asc "Root"), (keyPassword, asc "x")]) [.withDefaults, .withEnvironment])).2 =
    .connected t ∧ t.user = asc "root" := by
  have h : (match (connect (newConfig (environment [(keyUser, asc "Root"), (keyPassword, asc "x")]) [.withDefaults, .withEnvironment])).2 with
    | .connected t => decide (t.user = asc "root") | _ => false) = true := by decide +kernel
  split at h
  · rename_i t ht
    exact ⟨t, ht, of_decide_eq_true h⟩
  · cases h

/-- C83 is violated: with a password, a user with an underscore cannot be used. -/
theorem C83_underscore_user_violated :
    (connect (newConfig (environment [(keyUser, asc "fpki_user"), (keyPassword, asc "x")]) [.withDefaults, .withEnvironment])).2 = .error ∧
    (∃ t, (connect (newConfig (environment [(keyUser, asc "fpki_user")]) [.withDefaults, .withEnvironment])).2 = .connected t ∧ t.user = asc "fpki_user") := by
  refine ⟨by decide +kernel, ?_⟩
  have h : (match (connect (newConfig (environment [(keyUser, asc "fpki_user")]) [.withDefaults, .withEnvironment])).2 with
    | .connected t => decide (t.user = asc "fpki_user") | _ => false) = true := by decide +kernel
  split at h
  · rename_i t ht
    exact ⟨t, ht, of_decide_eq_true h⟩
  · cases h

/-- C83 is violated: with a password that contains `?`, the connection fails. -/
theorem C83_question_mark_violated :
    (connect (newConfig (environment [(keyPassword, asc "what?")]) [.withDefaults, .withEnvironment])).2 = .error := by decide +kernel

/-- C83 is violated: if the DSN is given in the configuration, the keys `DBNAME`, `MYSQL_USER`, … stay among the parameters: the driver will try to set system
variables of these names. -/
theorem C83_explicit_dsn_violated : ∃ t, (connect { newConfig (fun _ => none) mapserverMods with dsn := asc "root@unix(/tmp/s)/fpki" }).2 = .connected t ∧
    (keyDBName, asc "fpki") ∈ t.params ∧ (keyUser, asc "root") ∈ t.params := by
  have h : (match (connect { newConfig (fun _ => none) mapserverMods with dsn := asc "root@unix(/tmp/s)/fpki" }).2 with
    | .connected t => decide ((keyDBName, asc "fpki") ∈ t.params) && decide ((keyUser, asc "root") ∈ t.params) | _ => false) = true := by decide +kernel
  split at h
  · rename_i t ht
    simp only [Bool.and_eq_true, decide_eq_true_eq] at h
    exact ⟨t, ht, h.1, h.2⟩
  · cases h

/-! ## Witnesses -/

/-- `C83_ingest_partial`: its hypotheses hold for the defaults; `C83_password_ignored_violated` for two environments that differ. -/
example : (∀ x ∈ asc "fpki_2024", plain x = true ∨ x = 58 ∨ x = 64) ∧ (∀ x ∈ ((fun _ => none : Bytes → Option Bytes) keyUser).getD (asc "root"), plain x = true ∨ x = 64) := by
  decide

/-- The hypotheses of `C83_password_partial` are met, with a password of special characters and a port. -/
example : let c := newConfig (environment [(keyPassword, asc "p@s/s:%w()"), (keyPort, asc "3307")]) [.withDefaults, .withEnvironment]
    c.dsn = [] ∧ c.values.get keyLocalSocket = none ∧ c.values.val keyUser = 114 :: asc "oot" ∧ (∀ x ∈ asc "oot", schemeChar x = true) ∧
    (∀ x ∈ c.values.val keyPassword, opaqueChar x = true) ∧ (c.values.val keyPassword).head? ≠ some 47 ∧
    (∀ x ∈ c.values.val keyHost, opaqueChar x = true ∧ x ≠ 58 ∧ x ≠ 64) ∧ (∀ x ∈ c.values.val keyPort, opaqueChar x = true ∧ x ≠ 64) ∧
    (∀ x ∈ c.values.val keyDBName, opaqueChar x = true ∧ x ≠ 47 ∧ x ≠ 37) ∧ (∀ p ∈ parameters c, ∀ x ∈ p.1, unreserved x = true) := by
  decide +kernel

/-- The hypotheses of `C83_tcp_partial` are met by the defaults, those of `C83_port_violated` with a port. -/
example : let c := newConfig (environment []) [.withDefaults, .withEnvironment]
    let c' := newConfig (environment [(keyPort, asc "3306")]) [.withDefaults, .withEnvironment]
    c.values.get keyLocalSocket = none ∧ c.values.val keyPassword = [] ∧ c.values.val keyPort = [] ∧ (∀ x ∈ c.values.val keyUser, plain x = true ∨ x = 64) ∧
    (∀ x ∈ c.values.val keyHost, plain x = true) ∧ (∀ x ∈ c.values.val keyDBName, plain x = true ∨ x = 58 ∨ x = 64) ∧
    (∀ p ∈ parameters c, ∀ x ∈ p.1, unreserved x = true) ∧
    c'.values.get keyLocalSocket = none ∧ c'.values.val keyPort ≠ [] ∧ (∀ x ∈ c'.values.val keyHost, x ≠ 47 ∧ x ≠ 63 ∧ x ≠ 35) := by
  decide +kernel

end Fpki.DbConf
