import Verif.Relay.TokenLemmas
import Verif.Props.Token

/-!
# Properties C52 to C54: which connections a relay accepts
-/

set_option autoImplicit false

namespace Verif.Props.Auth

open Verif Verif.Relay.Token Verif.Relay.Auth

/-! ## Specification -/

/-- `path` is the path of a URL without its leading slashes. -/
def Trimmed (url path : Text) : Prop :=
  ∃ n, url = List.replicate n '/' ++ path ∧ path.head? ≠ some '/'

/-- A path consists of a directory and a file name; the directory may be missing. -/
def Located (path dir file : Text) : Prop :=
  '/' ∉ file ∧ (path = dir ++ '/' :: file ∨ path = file ∧ dir = [])

/-- The key that applies in a directory, if one does: that of the table if the directory is
listed there, else the root key. -/
def Applies (a : Auth) (dir : Text) (k : Option Key) : Prop :=
  (dir, k) ∈ a.paths ∨ (∀ k', (dir, k') ∉ a.paths) ∧ k = a.key

/-- The table of keys has no directory twice (it is a hash map). -/
def Table (a : Auth) : Prop := (a.paths.map (·.1)).Nodup

/-- Everything under a path may be published and subscribed to. -/
def everything (path : Text) : Payload := { path := path, publish := some [], subscribe := some [] }

/-- The file name carries a token. -/
def Carries (file token : Text) : Prop := file = token ++ ['.', 'j', 'w', 't']

/-! ## Relating the model to the specification -/

theorem trimmed_iff {url path : Text} : Trimmed url path ↔ path = url.dropWhile (· == '/') := by
  constructor
  · rintro ⟨n, rfl, h⟩
    rw [List.dropWhile_append_of_pos (by
      intro x hx
      rw [List.eq_of_mem_replicate hx]
      rfl)]
    cases path with
    | nil => rfl
    | cons c path =>
      have : c ≠ '/' := by rintro rfl; exact h rfl
      simp [List.dropWhile_cons, this]
  · rintro rfl
    refine ⟨(url.takeWhile (· == '/')).length, ?_, ?_⟩
    · have : url.takeWhile (· == '/') = List.replicate (url.takeWhile (· == '/')).length '/' := by
        rw [List.eq_replicate_iff]
        refine ⟨rfl, ?_⟩
        intro b hb
        have := List.all_takeWhile (p := (· == '/')) (l := url)
        rw [List.all_eq_true] at this
        simpa using this b hb
      rw [← this, List.takeWhile_append_dropWhile]
    · intro hh
      have := List.head?_dropWhile_not (· == '/') url
      rw [hh] at this
      simp at this

theorem located_iff {path dir file : Text} :
    Located path dir file ↔ (rsplitOnce '/' path).getD ([], path) = (dir, file) := by
  constructor
  · rintro ⟨h, rfl | ⟨rfl, rfl⟩⟩
    · rw [rsplitOnce_some.2 ⟨rfl, h⟩]; rfl
    · rw [rsplitOnce_none.2 h]; rfl
  · intro h
    cases hs : rsplitOnce '/' path with
    | none =>
      rw [hs] at h
      injection h with h1 h2
      subst h1 h2
      exact ⟨rsplitOnce_none.1 hs, .inr ⟨rfl, rfl⟩⟩
    | some r =>
      obtain ⟨x, y⟩ := r
      rw [hs] at h
      injection h with h1 h2
      subst h1 h2
      obtain ⟨h1, h2⟩ := rsplitOnce_some.1 hs
      exact ⟨h2, .inl h1⟩

theorem lookup_some {m : List (Text × Option Key)} (hm : (m.map (·.1)).Nodup) {dir : Text}
    {k : Option Key} : lookup m dir = some k ↔ (dir, k) ∈ m := by
  unfold lookup
  induction m with
  | nil => simp
  | cons e m ih =>
    obtain ⟨d, k'⟩ := e
    simp only [List.map_cons, List.nodup_cons] at hm
    rw [List.find?_cons]
    by_cases hd : d = dir
    · subst hd
      simp only [beq_self_eq_true, Option.map_some, Option.some.injEq, List.mem_cons, Prod.mk.injEq,
        true_and]
      constructor
      · intro h; exact .inl h.symm
      · rintro (h | h)
        · exact h.symm
        · exact absurd (List.mem_map.2 ⟨_, h, rfl⟩) hm.1
    · have : (d == dir) = false := by simpa using hd
      simp only [this]
      rw [ih hm.2]
      simp only [List.mem_cons, Prod.mk.injEq]
      constructor
      · exact .inr
      · rintro (⟨h, -⟩ | h)
        · exact absurd h.symm hd
        · exact h

theorem applies_iff {a : Auth} (ha : Table a) {dir : Text} {k : Option Key} :
    Applies a dir k ↔ (lookup a.paths dir).getD a.key = k := by
  unfold Applies
  cases hl : lookup a.paths dir with
  | none =>
    have hn : ∀ k', (dir, k') ∉ a.paths := by
      intro k' hk
      rw [(lookup_some ha).2 hk] at hl
      cases hl
    constructor
    · rintro (h | ⟨-, rfl⟩)
      · exact absurd h (hn k)
      · rfl
    · intro h; exact .inr ⟨hn, h.symm⟩
  | some k' =>
    have hm := (lookup_some ha).1 hl
    constructor
    · rintro (h | ⟨h, -⟩)
      · rw [(lookup_some ha).2 h] at hl
        injection hl with hl
        exact hl.symm
      · exact absurd hm (h k')
    · rintro rfl
      exact .inl hm

/-- Every URL has exactly one path, directory, file name and applicable key. -/
theorem parts {a : Auth} (ha : Table a) (url : Text) :
    ∃ path dir file k, Trimmed url path ∧ Located path dir file ∧ Applies a dir k ∧
      ∀ path' dir' file' k', Trimmed url path' → Located path' dir' file' → Applies a dir' k' →
        path' = path ∧ dir' = dir ∧ file' = file ∧ k' = k := by
  obtain ⟨⟨dir, file⟩, hr⟩ : ∃ r, (rsplitOnce '/' (url.dropWhile (· == '/'))).getD
      ([], url.dropWhile (· == '/')) = r := ⟨_, rfl⟩
  refine ⟨_, dir, file, _, trimmed_iff.2 rfl, located_iff.2 hr, (applies_iff ha).2 rfl, ?_⟩
  intro path' dir' file' k' h1 h2 h3
  have e1 := trimmed_iff.1 h1
  have e2 := located_iff.1 h2
  have e3 := (applies_iff ha).1 h3
  subst e1
  rw [hr] at e2
  injection e2 with e4 e5
  subst e4 e5
  exact ⟨rfl, rfl, rfl, e3.symm⟩

variable {verify : Key → Text → Except Error Payload} {a : Auth} {url : Text}

/-- The answer for the parts of a URL. -/
def answer (verify : Key → Text → Except Error Payload) (path dir file : Text) (k : Option Key) :
    Out :=
  match stripSuffix extension file with
  | some token =>
    match k with
    | none => .panic .unwrapNone
    | some key =>
      match verify key token with
      | .error e => .refused e
      | .ok p => .ok { p with path := dir ++ p.path }
  | none =>
    match k with
    | some _ => .tokenRequired
    | none => .ok (everything path)

/-- The check in terms of the specification. -/
theorem validate_parts (ha : Table a) {path dir file : Text} {k : Option Key}
    (h1 : Trimmed url path) (h2 : Located path dir file) (h3 : Applies a dir k) :
    validate verify a url = answer verify path dir file k := by
  have e1 := trimmed_iff.1 h1
  have e2 := located_iff.1 h2
  have e3 := (applies_iff ha).1 h3
  subst e1
  unfold validate answer
  simp only [e2, e3]
  rfl

/-! ## C52 -/

/-- **C52.**  A connection is authorised exactly if no key applies in the directory of its URL
and it carries no token, and then for everything under the path of the URL; or a key applies in
the directory and verifies the token that the URL carries, and then for what the token says, with
the directory put in front of its path. -/
theorem c52_authorised (ha : Table a) {p : Payload} :
    validate verify a url = .ok p ↔
      ∃ path dir file k, Trimmed url path ∧ Located path dir file ∧ Applies a dir k ∧
        ((k = none ∧ (∀ token, ¬ Carries file token) ∧ p = everything path) ∨
          ∃ key token q, k = some key ∧ Carries file token ∧ verify key token = .ok q ∧
            p = { q with path := dir ++ q.path }) := by
  obtain ⟨path, dir, file, k, h1, h2, h3, huniq⟩ := parts ha url
  rw [validate_parts ha h1 h2 h3]
  unfold answer
  constructor
  · intro h
    refine ⟨path, dir, file, k, h1, h2, h3, ?_⟩
    split at h
    · rename_i token ht
      split at h
      · cases h
      · rename_i key
        split at h
        · cases h
        · rename_i q hq
          injection h with h
          exact .inr ⟨key, token, q, rfl, stripSuffix_some.1 ht, hq, h.symm⟩
    · rename_i ht
      split at h
      · cases h
      · injection h with h
        exact .inl ⟨rfl, stripSuffix_none.1 ht, h.symm⟩
  · rintro ⟨path', dir', file', k', g1, g2, g3, hor⟩
    obtain ⟨rfl, rfl, rfl, rfl⟩ := huniq _ _ _ _ g1 g2 g3
    rcases hor with ⟨rfl, hn, rfl⟩ | ⟨key, token, q, rfl, hc, hv, rfl⟩
    · rw [stripSuffix_none.2 (show ∀ t, file' ≠ t ++ extension from hn)]
    · rw [stripSuffix_some.2 (show file' = token ++ extension from hc)]
      simp only [hv]

/-- C52 for the tokens of `moq-token`: the authorisation rests on a token with the hash of the
key that applies in the directory. -/
theorem c52_token (ha : Table a) {J : Jwt} {now : Int} {path dir file : Text} {key : Key}
    (h1 : Trimmed url path) (h2 : Located path dir file) (h3 : Applies a dir (some key)) {p : Payload}
    (h : validate (fun k t => k.check J now t) a url = .ok p) :
    ∃ header claims c, file = header ++ '.' :: claims ++ '.' ::
        J.mac key.algorithm key.secret (header ++ '.' :: claims) ++ ['.', 'j', 'w', 't'] ∧
      J.readClaims claims = some c ∧ (∀ exp, c.exp = some exp → now ≤ exp + 60) ∧
      p = { ofClaims c with path := dir ++ c.path } := by
  obtain ⟨path', dir', file', k', g1, g2, g3, hor⟩ := (c52_authorised ha).1 h
  obtain ⟨x1, x2, x3, x4, -, -, -, hu⟩ := parts ha url
  obtain ⟨rfl, rfl, rfl, rfl⟩ := hu _ _ _ _ h1 h2 h3
  obtain ⟨rfl, rfl, rfl, rfl⟩ := hu _ _ _ _ g1 g2 g3
  rcases hor with ⟨h, -⟩ | ⟨key', token, q, hk, hc, hv, rfl⟩
  · cases h
  injection hk with hk
  subst hk
  obtain ⟨-, header, claims, hd, c, rfl, -, -, -, -, -, hcl, rfl, he⟩ := Token.c57_verify.1 hv
  exact ⟨header, claims, c, hc, hcl, he, rfl⟩

/-! ## C53 -/

/-- **C53, when it panics.**  The check panics exactly for URLs that carry a token although no key
applies in their directory. -/
theorem c53_panic_iff (ha : Table a) {e : Panic} :
    validate verify a url = .panic e ↔
      e = .unwrapNone ∧ ∃ path dir file token, Trimmed url path ∧ Located path dir file ∧
        Applies a dir none ∧ Carries file token := by
  obtain ⟨path, dir, file, k, h1, h2, h3, huniq⟩ := parts ha url
  rw [validate_parts ha h1 h2 h3]
  unfold answer
  constructor
  · intro h
    split at h
    · rename_i token ht
      split at h
      · injection h with h
        exact ⟨h.symm, path, dir, file, token, h1, h2, h3, stripSuffix_some.1 ht⟩
      · split at h <;> cases h
    · split at h <;> cases h
  · rintro ⟨rfl, path', dir', file', token, g1, g2, g3, hc⟩
    obtain ⟨rfl, rfl, rfl, rfl⟩ := huniq _ _ _ _ g1 g2 g3
    rw [stripSuffix_some.2 (show file' = token ++ extension from hc)]

/-- **C53 (partial).**  If every directory has a key, the check does not panic.  Missing: relays
where authentication is not (everywhere) enabled, see `c53_panics`. -/
theorem c53_no_panic_partial (ha : Table a) (hk : ∃ k, a.key = some k)
    (hp : ∀ dir, (dir, none) ∉ a.paths) (e : Panic) : validate verify a url ≠ .panic e := by
  intro h
  obtain ⟨-, path, dir, file, token, -, -, h3, -⟩ := (c53_panic_iff ha).1 h
  rcases h3 with h3 | ⟨-, h3⟩
  · exact hp dir h3
  · obtain ⟨k, hk⟩ := hk
    rw [hk] at h3
    cases h3

/-- **C53 is violated.**  A relay without any key panics on `/x.jwt`; and a relay with a key for
the directory `d` only panics on `/x.jwt`, too. -/
theorem c53_panics (verify : Key → Text → Except Error Payload) (key : Key) :
    validate verify ⟨none, []⟩ ['/', 'x', '.', 'j', 'w', 't'] = .panic .unwrapNone ∧
    validate verify ⟨none, [(['d'], some key)]⟩ ['/', 'x', '.', 'j', 'w', 't'] =
      .panic .unwrapNone :=
  ⟨rfl, rfl⟩

/-! ## C54 -/

/-- A path lies inside a directory. -/
def Inside (dir path : Text) : Prop := ∃ rest, path = dir ++ '/' :: rest

/-- A grant covers a path for publishing. -/
def MayPublish (p : Payload) (path : Text) : Prop :=
  (∃ pre, p.publish = some pre ∧ p.path ++ pre <+: path) ∨
    ∃ f, p.publishForce = some f ∧ path = p.path ++ f

/-- A grant covers a path for subscribing. -/
def MaySubscribe (p : Payload) (path : Text) : Prop :=
  ∃ pre, p.subscribe = some pre ∧ p.path ++ pre <+: path

/-- **C54 (partial).**  A URL whose directory is exactly one with a key is not authorised without
a token that the key verifies.  Missing: URLs in other directories, see `c54_bypass`. -/
theorem c54_directory_partial (ha : Table a) {path dir file : Text} {key : Key}
    (h1 : Trimmed url path) (h2 : Located path dir file) (h3 : (dir, some key) ∈ a.paths)
    {p : Payload} (h : validate verify a url = .ok p) :
    ∃ token q, Carries file token ∧ verify key token = .ok q ∧ p = { q with path := dir ++ q.path } := by
  obtain ⟨path', dir', file', k', g1, g2, g3, hor⟩ := (c52_authorised ha).1 h
  obtain ⟨x1, x2, x3, x4, -, -, -, hu⟩ := parts ha url
  obtain ⟨rfl, rfl, rfl, rfl⟩ := hu _ _ _ _ h1 h2 (.inl h3)
  obtain ⟨rfl, rfl, rfl, rfl⟩ := hu _ _ _ _ g1 g2 g3
  rcases hor with ⟨h, -⟩ | ⟨key', token, q, hk, hc, hv, rfl⟩
  · cases h
  injection hk with hk
  subst hk
  exact ⟨token, q, hc, hv, rfl⟩

/-- C54 holds for a relay where every directory has a key: every grant rests on a token verified
by the root key or a key of the table. -/
theorem c54_all_keys_partial (ha : Table a) (hk : ∃ k, a.key = some k)
    (hp : ∀ dir, (dir, none) ∉ a.paths) {p : Payload} (h : validate verify a url = .ok p) :
    ∃ key token q, (a.key = some key ∨ ∃ dir, (dir, some key) ∈ a.paths) ∧
      verify key token = .ok q := by
  obtain ⟨path', dir', file', k', g1, g2, g3, hor⟩ := (c52_authorised ha).1 h
  rcases hor with ⟨rfl, -⟩ | ⟨key', token, q, rfl, hc, hv, rfl⟩
  · exfalso
    rcases g3 with g3 | ⟨-, g3⟩
    · exact hp _ g3
    · obtain ⟨k, hk⟩ := hk
      rw [hk] at g3
      cases g3
  · refine ⟨key', token, q, ?_, hv⟩
    rcases g3 with g3 | ⟨-, g3⟩
    · exact .inr ⟨_, g3⟩
    · exact .inl g3.symm

/-- **C54 is violated.**  The directory `d` has a key, there is no root key.  The URLs `/` and
`/d` (parents) and `/d/e/x` (a child) are accepted without any token, and every one of them may
publish and subscribe to `d/e/x1`, inside the directory. -/
theorem c54_bypass (verify : Key → Text → Except Error Payload) (key : Key) :
    ∀ u ∈ [['/'], ['/', 'd'], ['/', 'd', '/', 'e', '/', 'x']],
      ∃ p, validate verify ⟨none, [(['d'], some key)]⟩ u = .ok p ∧
        Inside ['d'] ['d', '/', 'e', '/', 'x', '1'] ∧
        MayPublish p ['d', '/', 'e', '/', 'x', '1'] ∧
        MaySubscribe p ['d', '/', 'e', '/', 'x', '1'] := by
  intro u hu
  simp only [List.mem_cons, List.not_mem_nil, or_false] at hu
  rcases hu with rfl | rfl | rfl
  all_goals
    refine ⟨_, rfl, ⟨['e', '/', 'x', '1'], rfl⟩, .inl ⟨[], rfl, ?_⟩, ⟨[], rfl, ?_⟩⟩ <;>
    simp

/-- **C54 is violated also with a root key.**  The token verified by a directory's key yields
authority outside of that directory: the granted path is the directory directly followed by the
token's path, without a slash.  The key of `d` thus grants access to `dx`. -/
theorem c54_escape (verify : Key → Text → Except Error Payload) (key root : Key)
    (hv : verify key ['t'] = .ok { path := ['x'], publish := some [], subscribe := some [] }) :
    ∃ p, validate verify ⟨some root, [(['d'], some key)]⟩ ['/', 'd', '/', 't', '.', 'j', 'w', 't'] =
        .ok p ∧ MayPublish p ['d', 'x', '/', 'y'] ∧ ¬ Inside ['d'] ['d', 'x', '/', 'y'] := by
  refine ⟨{ path := ['d', 'x'], publish := some [], subscribe := some [] }, ?_,
    .inl ⟨[], rfl, by simp⟩, ?_⟩
  · have : validate verify ⟨some root, [(['d'], some key)]⟩ ['/', 'd', '/', 't', '.', 'j', 'w', 't'] =
      (match verify key ['t'] with
        | .error e => .refused e
        | .ok p => .ok { p with path := ['d'] ++ p.path }) := rfl
    rw [this, hv]
    rfl
  · rintro ⟨rest, h⟩
    simp at h

/-! ## Loading the configuration -/

/-- A loaded configuration has exactly the listed directories, without a key where the file name
is empty, and every key in it can verify. -/
theorem c52_loaded {load : Text → Option Key} {key : Option Text} {paths : List (Text × Text)}
    (h : Auth.new load key paths = some a) :
    a.paths.map (·.1) = paths.map (·.1) ∧
    (∀ dir k, (dir, k) ∈ a.paths → ∃ file, (dir, file) ∈ paths ∧
      ((file = [] ∧ k = none) ∨ file ≠ [] ∧ k = load file ∧ k ≠ none)) ∧
    (a.key = none ↔ key = none ∨ key = some []) ∧
    (∀ k, a.key = some k ∨ (∃ dir, (dir, some k) ∈ a.paths) → KeyOperation.verify ∈ k.operations) := by
  have hkey : ∀ file k, loadKey load file = some k →
      load file = some k ∧ KeyOperation.verify ∈ k.operations := by
    intro file k hk
    unfold loadKey at hk
    split at hk
    · cases hk
    · split at hk
      · injection hk with hk; subst hk; exact ⟨by assumption, by assumption⟩
      · cases hk
  have hpaths : ∀ (ps : List (Text × Text)) m, loadPaths load ps = some m →
      m.map (·.1) = ps.map (·.1) ∧
      (∀ dir k, (dir, k) ∈ m → ∃ file, (dir, file) ∈ ps ∧
        ((file = [] ∧ k = none) ∨ file ≠ [] ∧ k = load file ∧ k ≠ none)) ∧
      ∀ dir k, (dir, some k) ∈ m → KeyOperation.verify ∈ k.operations := by
    intro ps
    induction ps with
    | nil =>
      intro m hm
      injection hm with hm
      subst hm
      simp
    | cons e ps ih =>
      obtain ⟨path, file⟩ := e
      intro m hm
      rw [loadPaths] at hm
      split at hm
      · rename_i k m' hk hm'
        injection hm with hm
        subst hm
        obtain ⟨h1, h2, h3⟩ := ih m' hm'
        have hfile : (file = [] ∧ k = none) ∨ file ≠ [] ∧ ∃ k', k = some k' ∧ loadKey load file = some k' := by
          split at hk
          · rename_i hf; injection hk with hk; exact .inl ⟨hf, hk.symm⟩
          · rename_i hf
            rw [Option.map_eq_some_iff] at hk
            obtain ⟨k', hk', rfl⟩ := hk
            exact .inr ⟨hf, k', rfl, hk'⟩
        refine ⟨by simp [h1], ?_, ?_⟩
        · intro dir k0 hmem
          rcases List.mem_cons.1 hmem with heq | hmem
          · injection heq with e1 e2
            subst e1 e2
            refine ⟨file, List.mem_cons_self, ?_⟩
            rcases hfile with hf | ⟨hf, k', rfl, hk'⟩
            · exact .inl hf
            · exact .inr ⟨hf, (hkey _ _ hk').1.symm, by simp⟩
          · obtain ⟨f, hf, hor⟩ := h2 dir k0 hmem
            exact ⟨f, List.mem_cons_of_mem _ hf, hor⟩
        · intro dir k0 hmem
          rcases List.mem_cons.1 hmem with heq | hmem
          · injection heq with e1 e2
            rcases hfile with ⟨-, hf⟩ | ⟨hf, k', rfl, hk'⟩
            · rw [hf] at e2; cases e2
            · injection e2 with e2
              subst e2
              exact (hkey _ _ hk').2
          · exact h3 dir k0 hmem
      · cases hm
  unfold Auth.new at h
  split at h
  swap
  · cases h
  rename_i k m hk hm
  injection h with h
  subst h
  obtain ⟨h1, h2, h3⟩ := hpaths _ _ hm
  refine ⟨h1, h2, ?_, ?_⟩
  · split at hk
    · injection hk with hk; subst hk; simp
    · injection hk with hk; subst hk; simp
    · rename_i file hf
      rw [Option.map_eq_some_iff] at hk
      obtain ⟨k', hk', rfl⟩ := hk
      simp only [reduceCtorEq, Option.some.injEq, false_or, false_iff]
      intro h
      exact hf h
  · rintro k0 (hk0 | ⟨dir, hk0⟩)
    · subst hk0
      split at hk
      · cases hk
      · cases hk
      · rw [Option.map_eq_some_iff] at hk
        obtain ⟨k', hk', h⟩ := hk
        injection h with h
        subst h
        exact (hkey _ _ hk').2
    · exact h3 dir k0 hk0

/-! ## Examples: the hypotheses are met in non-trivial cases -/

/-- A relay with a root key, a directory with its own key and a public directory. -/
def sample : Auth :=
  ⟨some Token.toyKey, [(['d'], some { Token.toyKey with secret := [1] }), (['p', 'u', 'b'], none)]⟩

example : Table sample ∧
    /- `/pub/x` -/
    validate (fun k t => k.check Token.toy 0 t) sample ['/', 'p', 'u', 'b', '/', 'x'] =
      .ok (everything ['p', 'u', 'b', '/', 'x']) ∧
    /- `//d/<token>.jwt` with a token by the key of `d` -/
    validate (fun k t => k.check Token.toy 0 t) sample
        (['/', '/', 'd', '/'] ++ ['h', '.', '9', '.', 'm', 'm', 'm', 'm'] ++ extension) =
      .ok { path := ['d', '9'], expires := some (1000 * second) } ∧
    /- the same token elsewhere -/
    validate (fun k t => k.check Token.toy 0 t) sample
        (['/', 'e', '/'] ++ ['h', '.', '9', '.', 'm', 'm', 'm', 'm'] ++ extension) =
      .refused .invalidSignature ∧
    validate (fun k t => k.check Token.toy 0 t) sample ['/', 'd', '/', 'x'] = .tokenRequired ∧
    validate (fun k t => k.check Token.toy 0 t) sample
      (['/', 'p', 'u', 'b', '/', 't'] ++ extension) = .panic .unwrapNone := by
  refine ⟨by unfold Table sample; decide, rfl, rfl, rfl, rfl, rfl⟩

example : Auth.new (fun f => if f = ['k'] then some Token.toyKey else none) (some ['k'])
    [(['d'], ['k']), (['e'], [])] =
    some ⟨some Token.toyKey, [(['d'], some Token.toyKey), (['e'], none)]⟩ := rfl

end Verif.Props.Auth
