import Verif.Native.TlsLemmas
import Verif.Relay.Auth

/-!
# C80 to C83: connecting a client to a server

See `properties.jsonl` for the statements in English.
-/

set_option autoImplicit false

namespace Verif.Props.Native

open Verif Verif.Native

/-! ## C80: connecting -/

/-- The server that answers a client with this URL: the certificate it presents. -/
def Answers (n : Net) (url : Url) (host alpn : Text) (cert : Bytes) : Prop :=
  url.host = some host ∧ n.server host (url.port.getD 443) alpn = some cert

/-- **C80, verified.**  When `connect` returns a session, a server has answered with a certificate
that was checked: for an `http` URL, its SHA-256 is the fingerprint that was fetched; for another
URL, it passes the configured verifier, which is the check against the roots unless verification
is disabled. -/
theorem c80_verified {e : Env} {n : Net} {v w : Verifier} {url : Url}
    (hc : connect e n v url = .webTransport w ∨ connect e n v url = .raw w) :
    ∃ host alpn cert, Answers n url host alpn cert ∧
      (url.scheme = http → ∃ text, n.fetch url = some text ∧
        hexDecode (trim e.space text) = some (e.hash cert)) ∧
      (url.scheme ≠ http → w = v ∧ (v = .roots → e.trusted cert host = true) ∧
        ∀ f, v = .fingerprint f → e.hash cert = f) := by
  unfold connect at hc
  split at hc
  · simp at hc
  · rename_i host hh
    simp only [] at hc
    split at hc
    · split at hc
      · simp at hc
      · rename_i w' url' hp
        split at hc
        · simp at hc
        · rename_i a ha
          split at hc
          · simp at hc
          · rename_i cert hs
            split at hc
            · rename_i hv
              have hw : w = w' := by
                unfold session at hc
                split at hc
                · split at hc <;> simp at hc; exact hc.symm
                · split at hc <;> simp at hc; exact hc.symm
              refine ⟨host, a, cert, ⟨hh, hs⟩, ?_, ?_⟩
              · intro hsch
                unfold prepare at hp
                rw [if_pos hsch] at hp
                split at hp
                · cases hp
                · rename_i text ht
                  split at hp
                  · cases hp
                  · rename_i f hf
                    cases hp
                    simp only [Verifier.verify, beq_iff_eq] at hv
                    exact ⟨text, ht, by rw [hf, hv]⟩
              · intro hsch
                unfold prepare at hp
                rw [if_neg hsch] at hp
                cases hp
                refine ⟨hw, ?_, ?_⟩
                · rintro rfl; exact hv
                · rintro f rfl; simpa [Verifier.verify] using hv
            · simp at hc
    · simp at hc

/-- **C80, partial: no crash.**  `connect` returns a session or an error for every URL whose scheme
is not `moql`; a scheme other than `http`, `https` and `moql` is an error.

Missing: `moql`, see `c80_panics`. -/
theorem c80_total_partial (e : Env) (n : Net) (v : Verifier) (url : Url) :
    (url.scheme ≠ moql → connect e n v url ≠ .panic) ∧
    (url.scheme ≠ http → url.scheme ≠ https → url.scheme ≠ moql →
      ∃ f, connect e n v url = .failed f) := by
  constructor
  · intro hm hc
    unfold connect at hc
    split at hc
    · cases hc
    · simp only [] at hc
      split at hc
      · split at hc
        · cases hc
        · rename_i w url' hp
          have hne : url'.scheme ≠ moql := by
            unfold prepare at hp
            split at hp
            · split at hp
              · cases hp
              · split at hp
                · cases hp
                · cases hp; show https ≠ moql; decide
            · cases hp; exact hm
          split at hc
          · cases hc
          · rename_i a ha
            split at hc
            · cases hc
            · split at hc
              · unfold alpn at ha
                unfold session at hc
                split at ha
                · rename_i h1
                  rw [if_pos h1] at hc
                  split at hc <;> cases hc
                · rename_i h1
                  simp_all
              · cases hc
      · cases hc
  · intro h1 h2 h3
    unfold connect
    split
    · exact ⟨_, rfl⟩
    · simp only []
      split
      · unfold prepare
        rw [if_neg h1]
        simp only []
        unfold alpn
        rw [if_neg h2, if_neg h3]
        exact ⟨_, rfl⟩
      · exact ⟨_, rfl⟩

/-- **C80 fails for `moql`.**  Whenever a server answers a client with a `moql` URL and its
certificate is accepted, `connect` panics. -/
theorem c80_panics {e : Env} {n : Net} {v : Verifier} {url : Url} {host : Text} {cert : Bytes}
    (hs : url.scheme = moql) (hl : n.lookup host (url.port.getD 443) = true)
    (ha : Answers n url host moqAlpn cert) (hv : v.verify e cert host = true) :
    connect e n v url = .panic := by
  have h1 : (moql : Text) ≠ http := by decide
  have h2 : (moql : Text) ≠ https := by decide
  have h3 : (moql : Text) ≠ moqAlpn := by decide
  unfold connect
  rw [ha.1]
  simp only []
  rw [if_pos hl]
  unfold prepare
  rw [hs, if_neg h1]
  simp only []
  unfold alpn
  rw [hs, if_neg h2, if_pos rfl]
  simp only []
  rw [ha.2]
  simp only []
  rw [if_pos hv]
  unfold session
  rw [hs, if_neg h2, if_neg h3]

/-- **C80, no raw sessions.**  No client ever obtains a session without WebTransport, although
servers accept them. -/
theorem c80_no_raw (e : Env) (n : Net) (v w : Verifier) (url : Url) :
    connect e n v url ≠ .raw w := by
  intro hc
  unfold connect at hc
  split at hc
  · cases hc
  · simp only [] at hc
    split at hc
    · split at hc
      · cases hc
      · rename_i v' url' hp
        split at hc
        · cases hc
        · rename_i a ha
          split at hc
          · cases hc
          · split at hc
            · unfold session at hc
              split at hc
              · split at hc <;> cases hc
              · split at hc
                · rename_i h1 h2
                  unfold alpn at ha
                  rw [if_neg h1, h2, if_neg (by decide)] at ha
                  cases ha
                · cases hc
            · cases hc
    · cases hc

/-- **C80, protocol.**  The protocol that a client offers is one that a server takes for what the
client means; a server refuses every other. -/
theorem c80_protocol (url : Url) (a : Text) (h : alpn url = some a) :
    (url.scheme = https → accept a = .webTransport) ∧ (url.scheme = moql → accept a = .raw) ∧
    ∀ b, accept b ≠ .unsupported ↔ b = webTransportAlpn ∨ b = moqAlpn := by
  refine ⟨?_, ?_, ?_⟩
  · intro hs
    unfold alpn at h
    rw [if_pos hs] at h
    cases h; decide
  · intro hs
    unfold alpn at h
    rw [hs, if_neg (by decide), if_pos rfl] at h
    cases h; decide
  · intro b
    unfold accept
    split
    · simp_all
    · split <;> simp_all

/-! ## C81: the certificate that a server presents -/

/-- A certificate is valid for a name. -/
def ValidFor (e : Env) (name : Text) (c : Bytes) : Prop := ∃ v, e.names c = some v ∧ v name = true

/-- A certificate can be parsed and is not valid for a name. -/
def OtherThan (e : Env) (name : Text) (c : Bytes) : Prop :=
  ∃ v, e.names c = some v ∧ v name = false

/-- **C81, by name.**  If all certificates can be parsed and one is valid for the requested name,
the first such is presented. -/
theorem c81_by_name {e : Env} {certs : List Bytes} {name : Text} (hd : e.dns name = true)
    (hp : ∀ c ∈ certs, e.names c ≠ none) (hv : ∃ c ∈ certs, ValidFor e name c) :
    ∃ pre c post, certs = pre ++ c :: post ∧ ValidFor e name c ∧
      (∀ x ∈ pre, ¬ ValidFor e name x) ∧ resolve e certs (some name) = .cert c := by
  cases hs : search e name certs with
  | cert c =>
    obtain ⟨pre, post, h1, h2, h3⟩ := search_cert hs
    refine ⟨pre, c, post, h1, h2, ?_, by simp [resolve, best, hd, hs]⟩
    rintro x hx ⟨v, hv, ht⟩
    obtain ⟨w, hw, hf⟩ := h3 x hx
    rw [hv] at hw; cases hw; rw [ht] at hf; cases hf
  | none =>
    obtain ⟨c, hc, v, h1, h2⟩ := hv
    obtain ⟨w, hw, hf⟩ := search_none.1 hs c hc
    rw [h1] at hw; cases hw; rw [h2] at hf; cases hf
  | panic p =>
    obtain ⟨_, pre, c, post, h1, h2, _⟩ := search_panic.1 hs
    exact absurd h2 (hp c (by rw [h1]; simp))

/-- **C81, default.**  Without a name, with a text that is no DNS name, or when no certificate is
valid for the name, the first certificate is presented, and none only if there is none. -/
theorem c81_default {e : Env} {certs : List Bytes} {sni : Option Text}
    (h : ∀ name, sni = some name → e.dns name = true → ∀ c ∈ certs, OtherThan e name c) :
    resolve e certs sni = match certs.head? with
      | some c => .cert c
      | none => .none := by
  have hb : best e certs sni = .none := by
    unfold best
    split
    · rfl
    · rename_i name
      split
      · rename_i hd; exact search_none.2 (h name rfl hd)
      · rfl
  unfold resolve
  rw [hb]
  cases certs <;> rfl

/-- **C81, own certificates.**  What is presented is always one of the configured certificates,
and nothing is presented exactly when there are none. -/
theorem c81_own (e : Env) (certs : List Bytes) (sni : Option Text) :
    (∀ c, resolve e certs sni = .cert c → c ∈ certs) ∧
    (resolve e certs sni = .none ↔ certs = []) := by
  unfold resolve
  cases hb : best e certs sni with
  | cert c =>
    unfold best at hb
    split at hb
    · cases hb
    · split at hb
      · obtain ⟨pre, post, h1, _⟩ := search_cert hb
        rw [h1]
        simp
      · cases hb
  | panic p =>
    simp only [reduceCtorEq, false_implies, implies_true, false_iff, true_and]
    rintro rfl
    unfold best at hb
    split at hb
    · cases hb
    · split at hb <;> simp [search] at hb
  | none => cases certs <;> simp

/-- **C81, partial: no panic.**  The choice panics exactly when it meets a certificate that cannot
be parsed, before one that is valid for the name.

Missing: the configuration is accepted without parsing the certificates. -/
theorem c81_panic_partial (e : Env) (certs : List Bytes) (sni : Option Text) (p : Panic) :
    resolve e certs sni = .panic p ↔ p = .unwrapNone ∧ ∃ name pre c post, sni = some name ∧
      e.dns name = true ∧ certs = pre ++ c :: post ∧ e.names c = none ∧
      ∀ x ∈ pre, OtherThan e name x := by
  have hr : resolve e certs sni = .panic p ↔ best e certs sni = .panic p := by
    unfold resolve
    cases best e certs sni with
    | none => cases certs <;> simp
    | cert c => simp
    | panic q => simp
  rw [hr]
  unfold best
  cases sni with
  | none => simp
  | some name =>
    simp only [Option.some.injEq]
    by_cases hd : e.dns name = true
    · rw [if_pos hd, search_panic]
      constructor
      · rintro ⟨hp, pre, c, post, h1, h2, h3⟩
        exact ⟨hp, name, pre, c, post, rfl, hd, h1, h2, h3⟩
      · rintro ⟨hp, name, pre, c, post, rfl, _, h1, h2, h3⟩
        exact ⟨hp, pre, c, post, h1, h2, h3⟩
    · rw [if_neg hd]
      constructor
      · intro h; cases h
      · rintro ⟨_, name, pre, c, post, rfl, h, _⟩; exact absurd h hd

/-! ## C82: pinning the fingerprint -/

/-- **C82, text.**  The text of a fingerprint, with any spaces around it, is read back. -/
theorem c82_text {space : Char → Bool} (hsp : ∀ c ∈ digits, space c = false) (f : Bytes)
    (a b : Text) (ha : ∀ c ∈ a, space c = true) (hb : ∀ c ∈ b, space c = true) :
    hexDecode (trim space (a ++ hexEncode f ++ b)) = some f := by
  rw [trim_pad ha (fun c hc => hsp c (hexEncode_mem hc)) hb]
  exact hexDecode_hexEncode f

/-- The network of a client whose URL leads to a relay with these certificates: the fingerprint is
that which the relay serves, and the certificate is that which it presents. -/
def AtRelay (e : Env) (n : Net) (url : Url) (host : Text) (certs : List Bytes)
    (sni : Option Text) (cert : Bytes) : Prop :=
  url.host = some host ∧ n.lookup host (url.port.getD 443) = true ∧
  n.fetch url = served e certs ∧ resolve e certs sni = .cert cert ∧
  n.server host (url.port.getD 443) webTransportAlpn = some cert

/-- What `connect` does with an `http` URL of a relay. -/
theorem connect_http {e : Env} (hsp : ∀ c ∈ digits, e.space c = false) {n : Net} {v : Verifier}
    {url : Url} {host : Text} {first : Bytes} {rest : List Bytes} {sni : Option Text}
    {cert : Bytes} (hs : url.scheme = http)
    (hr : AtRelay e n url host (first :: rest) sni cert) :
    connect e n v url =
      if e.hash cert = e.hash first then
        if n.request { url with scheme := https } = true then .webTransport (.fingerprint (e.hash first))
        else .failed .session
      else .failed .connect := by
  obtain ⟨h1, h2, h3, h4, h5⟩ := hr
  have ht := c82_text hsp (e.hash first) [] [] (by simp) (by simp)
  simp only [List.nil_append, List.append_nil] at ht
  unfold connect
  rw [h1]
  simp only []
  rw [if_pos h2]
  unfold prepare
  rw [if_pos hs, h3]
  simp only [served, fingerprints, List.map_cons, List.head?_cons]
  rw [ht]
  simp only []
  unfold alpn
  rw [if_pos rfl]
  simp only []
  rw [h5]
  simp only [Verifier.verify, beq_iff_eq]
  unfold session
  rw [if_pos rfl, h1]

/-- **C82, partial: the relay is recognised.**  A client with an `http` URL of a relay connects
with the configured verifier replaced by the fingerprint, provided that the certificate that the
relay presents for the host has the same SHA-256 as its first one; with a single certificate this
is always so.

Missing: relays that present another certificate, see `c82_rejected`. -/
theorem c82_recognised_partial {e : Env} (hsp : ∀ c ∈ digits, e.space c = false) {n : Net}
    {v : Verifier} {url : Url} {host : Text} {first : Bytes} {rest : List Bytes}
    {sni : Option Text} {cert : Bytes} (hs : url.scheme = http)
    (hr : AtRelay e n url host (first :: rest) sni cert)
    (hq : n.request { url with scheme := https } = true)
    (h1 : rest = [] ∨ e.hash cert = e.hash first) :
    connect e n v url = .webTransport (.fingerprint (e.hash first)) := by
  have hh : e.hash cert = e.hash first := by
    rcases h1 with rfl | h1
    · have := (c81_own e [first] sni).1 cert hr.2.2.2.1
      simp only [List.mem_cons, List.not_mem_nil, or_false] at this
      rw [this]
    · exact h1
  rw [connect_http hsp hs hr, if_pos hh, if_pos hq]

/-- **C82 fails with several certificates.**  A relay that presents, for the requested name, a
certificate with another SHA-256 than its first one is refused by every client with an `http`
URL. -/
theorem c82_refused {e : Env} (hsp : ∀ c ∈ digits, e.space c = false) {n : Net} {v : Verifier}
    {url : Url} {host : Text} {first : Bytes} {rest : List Bytes} {sni : Option Text}
    {cert : Bytes} (hs : url.scheme = http) (hr : AtRelay e n url host (first :: rest) sni cert)
    (hne : e.hash cert ≠ e.hash first) : connect e n v url = .failed .connect := by
  rw [connect_http hsp hs hr, if_neg hne]

/-- An environment in which the hash is the certificate itself and the certificate is the list of
the characters of the name for which it is valid. -/
def toy : Env where
  hash := id
  names := fun c => if c = [] then none else some fun name => name.map (fun x => UInt8.ofNat x.toNat) = c
  dns := fun _ => true
  trusted := fun _ _ => false
  space := fun c => c = ' '

/-- A certificate valid for `a`. -/
def certA : Bytes := [97]

/-- A certificate valid for `b`. -/
def certB : Bytes := [98]

/-- A relay with these certificates, for clients that ask for `host`. -/
def toyNet (certs : List Bytes) : Net where
  lookup := fun _ _ => true
  fetch := fun _ => served toy certs
  server := fun host _ _ =>
    match resolve toy certs (some host) with
    | .cert c => some c
    | _ => none
  request := fun _ => true

/-- **C82, witness.**  A relay with a certificate for `a` and one for `b`: a client with the URL
`http://a` connects, and one with the URL `http://b` refuses the relay, although the certificate
presented to it is valid for `b` and is the relay's own. -/
theorem c82_rejected :
    connect toy (toyNet [certA, certB]) .roots ⟨http, some ['a'], none⟩ =
      .webTransport (.fingerprint certA) ∧
    resolve toy [certA, certB] (some ['b']) = .cert certB ∧ ValidFor toy ['b'] certB ∧
    connect toy (toyNet [certA, certB]) .roots ⟨http, some ['b'], none⟩ = .failed .connect := by
  refine ⟨by decide +kernel, by decide +kernel, ⟨_, rfl, by decide +kernel⟩, by decide +kernel⟩

/-! The hypotheses of the theorems above are met. -/

/-- A client with a `moql` URL panics. -/
example : connect toy (toyNet [certA]) .off ⟨moql, some ['a'], none⟩ = .panic := by
  decide +kernel

/-- A client with another scheme fails. -/
example : connect toy (toyNet [certA]) .off ⟨['f', 't', 'p'], some ['a'], none⟩ =
    .failed .scheme := by decide +kernel

/-- The roots refuse the certificate; without verification it is accepted. -/
example : connect toy (toyNet [certA]) .roots ⟨https, some ['a'], none⟩ = .failed .connect ∧
    connect toy (toyNet [certA]) .off ⟨https, some ['a'], none⟩ = .webTransport .off := by
  decide +kernel

/-- The certificate is chosen by name, the first otherwise, and a certificate that cannot be
parsed is a panic unless a valid one is found before. -/
example : resolve toy [certA, certB] (some ['b']) = .cert certB ∧
    resolve toy [certA, certB] (some ['c']) = .cert certA ∧
    resolve toy [certA, certB] none = .cert certA ∧ resolve toy [] none = .none ∧
    resolve toy [certA, [], certB] (some ['b']) = .panic .unwrapNone ∧
    resolve toy [certA, [], certB] (some ['a']) = .cert certA := by decide +kernel

example : ∀ c ∈ digits, toy.space c = false := by decide +kernel

example : hexDecode (trim toy.space "  00ff7a ".toList) = some [0, 255, 122] := by decide +kernel

/-! ## C83: arguments with two parts -/

/-- **C83, certificates.**  The argument of `--tls-cert` is the file of the chain, a colon, and the
file of the key; the file of the chain has no colon. -/
theorem c83_cert (s chain key : Text) :
    parseCert s = some (chain, key) ↔ s = chain ++ ':' :: key ∧ ':' ∉ chain := by
  rw [← splitOnce]
  unfold parseCert
  split <;> simp_all

/-- **C83, paths.**  The argument of `--auth-path` is a path, an equals sign, and the file of a
key, and gives a table with that one entry; the path has no equals sign, and the empty argument
gives the empty table. -/
theorem c83_path (s : Text) (m : List (Text × Text)) :
    Verif.Relay.Auth.parseKeyVal s = some m ↔
      (s = [] ∧ m = []) ∨ ∃ k v, s = k ++ '=' :: v ∧ '=' ∉ k ∧ m = [(k, v)] := by
  unfold Verif.Relay.Auth.parseKeyVal
  by_cases hs : s = []
  · subst hs
    simp [eq_comm]
  · rw [if_neg hs]
    by_cases he : '=' ∈ s
    · rw [if_pos he]
      obtain ⟨h1, h2⟩ := splitOnce.1 ⟨he, rfl, rfl⟩
      constructor
      · intro h
        cases h
        exact .inr ⟨_, _, h1, h2, rfl⟩
      · rintro (⟨h, _⟩ | ⟨k, v, h3, h4, rfl⟩)
        · exact absurd h hs
        · obtain ⟨_, h5, h6⟩ := splitOnce.2 ⟨h3, h4⟩
          rw [h5, h6]
    · rw [if_neg he]
      constructor
      · intro h; cases h
      · rintro (⟨h, _⟩ | ⟨k, v, rfl, _⟩)
        · exact absurd h hs
        · simp at he

example : parseCert "a.pem:c:d.pem".toList = some ("a.pem".toList, "c:d.pem".toList) ∧
    parseCert "a.pem".toList = none := by decide +kernel

example : Verif.Relay.Auth.parseKeyVal "demo=k=1".toList = some [("demo".toList, "k=1".toList)] ∧
    Verif.Relay.Auth.parseKeyVal "demo".toList = none ∧ Verif.Relay.Auth.parseKeyVal [] = some [] := by decide +kernel

end Verif.Props.Native
