import Verif.Relay.TokenLemmas
import Mathlib.Data.Countable.Basic
import Mathlib.Data.Countable.Defs
import Mathlib.Logic.Equiv.List

/-!
# Property C57: signing and verifying tokens
-/

set_option autoImplicit false

namespace Verif.Props.Token

open Verif Verif.Relay.Token

/-- A time in whole seconds. -/
def Whole (t : Time) : Prop := ∃ n : Int, t = n * second

/-- The claims of a payload as the token will carry them: every time rounded to a second. -/
def rounded (p : Payload) : Payload :=
  { p with
    expires := p.expires.map fun t => seconds t * second
    issued := p.issued.map fun t => seconds t * second }

/-- **C57, verification.**  A key accepts a token exactly if it may verify, the token consists of
three segments of which the first is a header naming the key's algorithm, the second the claims
that are returned, and the third the hash of the first two under the key's secret, and the token
did not expire more than a minute ago. -/
theorem c57_verify {J : Jwt} {k : Key} {now : Int} {token : Text} {p : Payload} :
    k.check J now token = .ok p ↔
      KeyOperation.verify ∈ k.operations ∧
      ∃ header claims h c, token = header ++ '.' :: claims ++ '.' :: J.mac k.algorithm k.secret (header ++ '.' :: claims) ∧
        '.' ∉ header ∧ '.' ∉ claims ∧ '.' ∉ J.mac k.algorithm k.secret (header ++ '.' :: claims) ∧
        J.readHeader header = some h ∧ h.alg = k.algorithm ∧
        J.readClaims claims = some c ∧ p = ofClaims c ∧ ∀ exp, c.exp = some exp → now ≤ exp + 60 := by
  unfold Key.check
  by_cases hv : KeyOperation.verify ∈ k.operations
  swap
  · simp [hv]
  rw [if_pos hv]
  constructor
  · intro h
    refine ⟨hv, ?_⟩
    unfold decode at h
    split at h
    · cases h
    · rename_i message signature hs
      obtain ⟨rfl, hd⟩ := rsplitOnce_some.1 hs
      split at h
      · cases h
      · rename_i header claims hm
        obtain ⟨rfl, hd2⟩ := rsplitOnce_some.1 hm
        split at h
        · cases h
        rename_i hd3
        split at h
        · cases h
        rename_i hdr hh
        split at h
        · cases h
        rename_i ha
        split at h
        · cases h
        rename_i hsig
        split at h
        · cases h
        rename_i c hc
        have hsig : signature = _ := Classical.byContradiction hsig
        have ha : hdr.alg = _ := Classical.byContradiction ha
        split at h
        · rename_i he
          injection h with h
          refine ⟨header, claims, hdr, c, by rw [← hsig], hd3, hd2, hsig ▸ hd, hh, ha, hc, h.symm, ?_⟩
          intro exp hx
          rw [he] at hx
          cases hx
        · rename_i e he
          split at h
          · cases h
          rename_i hlt
          injection h with h
          refine ⟨header, claims, hdr, c, by rw [← hsig], hd3, hd2, hsig ▸ hd, hh, ha, hc, h.symm, ?_⟩
          intro exp hx
          rw [he] at hx
          injection hx with hx
          subst hx
          unfold leeway at hlt
          omega
  · rintro ⟨-, header, claims, h, c, rfl, h1, h2, h3, h4, h5, h6, rfl, h8⟩
    unfold decode
    rw [rsplitOnce_some.2 ⟨rfl, h3⟩]
    simp only
    rw [rsplitOnce_some.2 ⟨rfl, h2⟩]
    simp only [h1, if_false, h4, h5, h6, ne_eq, not_true_eq_false]
    cases hc : c.exp with
    | none => rfl
    | some e =>
      have := h8 e hc
      have hn : ¬ e < now - leeway := by unfold leeway; omega
      simp only [hn, if_false]
      rfl

/-- **C57, signing.**  A key signs exactly if it may, whatever the claims. -/
theorem c57_sign {J : Jwt} {k : Key} {p : Payload} :
    (∃ token, k.sign J p = .ok token) ↔ KeyOperation.sign ∈ k.operations := by
  unfold Key.sign
  split <;> simp_all

theorem seconds_whole (n : Int) : seconds (n * second) = n := by
  unfold seconds second
  split <;> omega

theorem ofClaims_toClaims (p : Payload) : ofClaims (toClaims p) = rounded p := by
  cases p with
  | mk path pub force sub exp iat => cases exp <;> cases iat <;> rfl

/-- **C57, round trip.**  What a key has signed is accepted by every key with the same secret and
algorithm that may verify, until a minute after it expires, and the claims come back with times
rounded to seconds. -/
theorem c57_roundtrip {J : Jwt} (hJ : J.Sound) {k k' : Key} {p : Payload} {token : Text} {now : Int}
    (hs : k.sign J p = .ok token) (ha : k'.algorithm = k.algorithm) (hk : k'.secret = k.secret)
    (hv : KeyOperation.verify ∈ k'.operations)
    (he : ∀ t, p.expires = some t → now ≤ seconds t + 60) :
    k'.check J now token = .ok (rounded p) := by
  unfold Key.sign at hs
  split at hs
  swap
  · cases hs
  injection hs with hs
  subst hs
  refine c57_verify.2 ⟨hv, J.writeHeader ⟨k.algorithm, k.kid⟩, J.writeClaims (toClaims p),
    ⟨k.algorithm, k.kid⟩, toClaims p, ?_, hJ.header_dot _, hJ.claims_dot _, hJ.mac_dot _ _ _,
    hJ.header _, ha.symm, hJ.claims _, (ofClaims_toClaims p).symm, ?_⟩
  · simp only [encode, ha, hk]
  · intro exp hx
    cases hp : p.expires with
    | none => simp [toClaims, hp] at hx
    | some t =>
      simp only [toClaims, hp, Option.map_some, Option.some.injEq] at hx
      have := he t hp
      omega

/-- **C57, the same claims.**  If the times are whole seconds the claims come back unchanged. -/
theorem c57_same {p : Payload} (he : ∀ t, p.expires = some t → Whole t)
    (hi : ∀ t, p.issued = some t → Whole t) : rounded p = p := by
  cases p with
  | mk path pub force sub exp iat =>
    have key : ∀ o : Option Time, (∀ t, o = some t → Whole t) →
        (o.map fun t => seconds t * second) = o := by
      intro o ho
      cases o with
      | none => rfl
      | some t =>
        obtain ⟨n, rfl⟩ := ho t rfl
        simp [seconds_whole]
    simp only [rounded, key exp he, key iat hi]

/-- Rounding moves a time by at most half a second. -/
theorem c57_round_error (t : Time) :
    -second ≤ 2 * (seconds t * second - t) ∧ 2 * (seconds t * second - t) ≤ second := by
  unfold seconds second
  split <;> omega

/-- **C57, wrong algorithm.**  What a key has signed is refused by every key with another
algorithm. -/
theorem c57_algorithm {J : Jwt} (hJ : J.Sound) {k k' : Key} {p : Payload} {token : Text} {now : Int}
    (hs : k.sign J p = .ok token) (ha : k'.algorithm ≠ k.algorithm) {q : Payload} :
    k'.check J now token ≠ .ok q := by
  intro hc
  obtain ⟨-, header, claims, h, c, ht, h1, h2, h3, h4, h5, -⟩ := c57_verify.1 hc
  unfold Key.sign at hs
  split at hs
  swap
  · cases hs
  injection hs with hs
  rw [ht] at hs
  simp only [encode] at hs
  have e1 := rsplitOnce_some.2 ⟨hs.symm, hJ.mac_dot _ _ _⟩
  rw [rsplitOnce_some.2 ⟨rfl, h3⟩] at e1
  injection e1 with e1
  injection e1 with e1 _
  have e2 := rsplitOnce_some.2 ⟨e1, hJ.claims_dot _⟩
  rw [rsplitOnce_some.2 ⟨rfl, h2⟩] at e2
  injection e2 with e2
  injection e2 with e2 _
  subst e2
  rw [hJ.header] at h4
  injection h4 with h4
  subst h4
  exact ha h5.symm

/-- **C57, expiry.**  A token is refused when it expired more than a minute ago. -/
theorem c57_expired {J : Jwt} (hJ : J.Sound) {k k' : Key} {p : Payload} {token : Text} {now : Int}
    {t : Time} (hs : k.sign J p = .ok token) (he : p.expires = some t)
    (hn : seconds t + 60 < now) {q : Payload} : k'.check J now token ≠ .ok q := by
  intro hc
  obtain ⟨-, header, claims, h, c, ht, h1, h2, h3, h4, h5, h6, h7, h8⟩ := c57_verify.1 hc
  unfold Key.sign at hs
  split at hs
  swap
  · cases hs
  injection hs with hs
  rw [ht] at hs
  simp only [encode] at hs
  have e1 := rsplitOnce_some.2 ⟨hs.symm, hJ.mac_dot _ _ _⟩
  rw [rsplitOnce_some.2 ⟨rfl, h3⟩] at e1
  injection e1 with e1
  injection e1 with e1 _
  have e2 := rsplitOnce_some.2 ⟨e1, hJ.claims_dot _⟩
  rw [rsplitOnce_some.2 ⟨rfl, h2⟩] at e2
  injection e2 with e2
  injection e2 with _ e2
  subst e2
  rw [hJ.claims] at h6
  injection h6 with h6
  subst h6
  have := h8 (seconds t) (by simp [toClaims, he])
  omega

/-- A generated key signs, and verifies what it signed. -/
theorem c57_generated {J : Jwt} (hJ : J.Sound) (random : Nat → Bytes) (alg : Algorithm)
    (id : Option Text) (p : Payload) {now : Int}
    (he : ∀ t, p.expires = some t → now ≤ seconds t + 60) :
    ∃ token, (Key.generate random alg id).sign J p = .ok token ∧
      (Key.generate random alg id).check J now token = .ok (rounded p) := by
  obtain ⟨token, ht⟩ := (c57_sign (J := J) (k := Key.generate random alg id) (p := p)).2
    (by simp [Key.generate])
  exact ⟨token, ht, c57_roundtrip hJ ht rfl rfl (by simp [Key.generate]) he⟩

/-- A generated secret has as many bits as the algorithm's name says, the size of its hash. -/
theorem c57_secret (random : Nat → Bytes) (hr : ∀ n, (random n).length = n) (alg : Algorithm)
    (id : Option Text) :
    alg.display = "HS" ++ toString (8 * (Key.generate random alg id).secret.length) := by
  simp only [Key.generate, hr]
  cases alg <;> decide +kernel

example : ∀ n, (List.replicate n (0 : UInt8)).length = n := fun _ => List.length_replicate

/-- The names of the algorithms are read back, and nothing else is accepted. -/
theorem c57_names {s : String} {a : Algorithm} : Algorithm.parse s = some a ↔ s = a.display := by
  constructor
  · unfold Algorithm.parse
    split
    · rename_i h; rintro ⟨⟩; exact h
    split
    · rename_i h; rintro ⟨⟩; exact h
    split
    · rename_i h; rintro ⟨⟩; exact h
    · rintro ⟨⟩
  · rintro rfl
    cases a <;> decide

/-! ## Disagreements with the strict reading of the property -/

/-- A token is still accepted half a minute after it expired; and the claims do not come back
unchanged when they carry fractions of a second. -/
theorem c57_leeway_and_rounding :
    seconds (1500 * 1000000) = 2 ∧
    rounded { expires := some (1500 * 1000000) } ≠ { expires := some (1500 * 1000000) } ∧
    ∀ {J : Jwt}, J.Sound → ∀ {k : Key} {token : Text},
      k.sign J { expires := some (100 * second) } = .ok token →
      KeyOperation.verify ∈ k.operations →
      k.check J 130 token = .ok { expires := some (100 * second) } := by
  refine ⟨by decide, by decide, ?_⟩
  intro J hJ k token hs hv
  have := c57_roundtrip hJ (now := 130) hs rfl rfl hv (by
    intro t ht
    injection ht with ht
    subst ht
    decide)
  rw [this]
  congr 1

/-! ## Examples: the hypotheses are met in non-trivial cases -/

/-- There are sound libraries: write everything in unary. -/
theorem sound_exists : ∃ J : Jwt, J.Sound := by
  have charC : Countable Char :=
    Function.Injective.countable (f := Char.toNat) fun a b h => Char.toNat_inj.1 h
  have algC : Countable Algorithm :=
    Function.Injective.countable (f := secretLength) fun a b h => by
      cases a <;> cases b <;> first | rfl | cases h
  have hc : Countable Claims :=
    Function.Injective.countable
      (f := fun c => (c.path, c.publish, c.publishForce, c.subscribe, c.exp, c.iat)) fun a b h => by
        cases a; cases b; simpa using h
  have hh : Countable Header :=
    Function.Injective.countable (f := fun h => (h.alg, h.kid)) fun a b h => by
      cases a; cases b; simpa using h
  obtain ⟨f, hf⟩ := hc.exists_injective_nat
  obtain ⟨g, hg⟩ := hh.exists_injective_nat
  classical
  refine ⟨⟨fun h => List.replicate (g h) 'a',
    fun t => if h : ∃ x, List.replicate (g x) 'a' = t then some h.choose else none,
    fun c => List.replicate (f c) 'a',
    fun t => if h : ∃ x, List.replicate (f x) 'a' = t then some h.choose else none,
    fun _ s m => List.replicate (s.length + m.length) 'm'⟩, ?_, ?_, ?_, ?_, ?_⟩
  · intro h
    have hx : ∃ x, List.replicate (g x) 'a' = List.replicate (g h) 'a' := ⟨h, rfl⟩
    simp only [hx, dif_pos, Option.some.injEq]
    have := congrArg List.length hx.choose_spec
    simp only [List.length_replicate] at this
    exact hg this
  · intro c
    have hx : ∃ x, List.replicate (f x) 'a' = List.replicate (f c) 'a' := ⟨c, rfl⟩
    simp only [hx, dif_pos, Option.some.injEq]
    have := congrArg List.length hx.choose_spec
    simp only [List.length_replicate] at this
    exact hf this
  · intro h hm
    have := List.eq_of_mem_replicate hm
    exact absurd this (by decide)
  · intro h hm
    have := List.eq_of_mem_replicate hm
    exact absurd this (by decide)
  · intro _ _ _ hm
    have := List.eq_of_mem_replicate hm
    exact absurd this (by decide)

/-- A library that only knows one header and the claims with a one-letter path. -/
def toy : Jwt where
  writeHeader h := if h.alg = .hs256 then ['h'] else ['x']
  readHeader t := if t = ['h'] then some ⟨.hs256, none⟩ else none
  writeClaims c := c.path
  readClaims t := if t.length = 1 then some { path := t, exp := some 1000 } else none
  mac _ s m := List.replicate (s.length + m.length) 'm'

/-- The key of the examples. -/
def toyKey : Key := ⟨.hs256, [.sign, .verify], [7, 8], none⟩

example :
    toyKey.sign toy { path := ['p'] } = .ok ['h', '.', 'p', '.', 'm', 'm', 'm', 'm', 'm'] ∧
    toyKey.check toy 1060 ['h', '.', 'p', '.', 'm', 'm', 'm', 'm', 'm'] =
      .ok { path := ['p'], expires := some (1000 * second) } ∧
    toyKey.check toy 1061 ['h', '.', 'p', '.', 'm', 'm', 'm', 'm', 'm'] = .error .expired ∧
    toyKey.check toy 0 ['h', '.', 'p', '.', 'm', 'm', 'm', 'm'] = .error .invalidSignature ∧
    { toyKey with algorithm := .hs512 }.check toy 0 ['h', '.', 'p', '.', 'm', 'm', 'm', 'm', 'm'] =
      .error .invalidAlgorithm ∧
    { toyKey with operations := [.sign] }.check toy 0 ['h', '.', 'p', '.', 'm', 'm', 'm', 'm', 'm'] =
      .error .unsupported ∧
    toyKey.check toy 0 ['h', '.', 'p'] = .error .invalidToken := by
  refine ⟨rfl, rfl, rfl, rfl, rfl, rfl, rfl⟩

end Verif.Props.Token
