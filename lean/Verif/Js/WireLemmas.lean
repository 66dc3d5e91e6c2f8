import Verif.Js.Wire
import Verif.Js.TextLemmas

/-!
# Lemmas about the browser's readers and writers

A method of the reader is characterised by a parser: a function of all bytes of the stream, those
buffered and those still to come.  The pieces the bytes arrive in do not matter.
-/

set_option autoImplicit false

namespace Verif.Js

open Verif Verif.Coding

open Verif.Session (RecvStream StreamEnd TransportError)

/-! ## Parsers -/

/-- The outcome of a parser. -/
inductive PR (α : Type) where
  | ok (a : α) (rest : Bytes)
  | thrown (e : JsError)
  /-- more bytes are needed -/
  | short

/-- A parser: a function of the bytes of a stream. -/
abbrev P (α : Type) := Bytes → PR α

def P.pure {α : Type} (a : α) : P α := fun bs => .ok a bs

def P.throw {α : Type} (e : JsError) : P α := fun _ => .thrown e

def P.bind {α β : Type} (p : P α) (f : α → P β) : P β := fun bs =>
  match p bs with
  | .ok a rest => f a rest
  | .thrown e => .thrown e
  | .short => .short

theorem P.bind_ok {α β : Type} {p : P α} {f : α → P β} {bs a rest} (h : p bs = .ok a rest) :
    P.bind p f bs = f a rest := by rw [P.bind, h]

theorem P.bind_short {α β : Type} {p : P α} {f : α → P β} {bs} (h : p bs = .short) :
    P.bind p f bs = .short := by rw [P.bind, h]

theorem P.bind_thrown {α β : Type} {p : P α} {f : α → P β} {bs e} (h : p bs = .thrown e) :
    P.bind p f bs = .thrown e := by rw [P.bind, h]

/-- All bytes of a reader's stream that have not been consumed. -/
def Reader.all (r : Reader) : Bytes := r.buffer ++ r.stream.chunks.flatten

/-- What a method does that needs bytes which do not come. -/
def starved {α : Type} : StreamEnd → Res α
  | .fin => .thrown .endOfStream
  | .failed e => .thrown (.transport e)
  | .idle => .waiting

/-- A method of the reader behaves like a parser. -/
def Implements {α : Type} (d : Rd α) (p : P α) : Prop := ∀ r : Reader,
  (∀ a rest, p r.all = .ok a rest → ∃ r', d r = (.ok a, r') ∧ r'.all = rest ∧
    r'.stream.ending = r.stream.ending) ∧
  (∀ e, p r.all = .thrown e → (d r).1 = .thrown e) ∧
  (p r.all = .short → (d r).1 = starved r.stream.ending)

theorem imp_pure {α : Type} (a : α) : Implements (Rd.pure a) (P.pure a) := by
  intro r
  refine ⟨?_, ?_, ?_⟩
  · intro b rest h
    cases h
    exact ⟨r, rfl, rfl, rfl⟩
  · intro e h; cases h
  · intro h; cases h

theorem imp_throw {α : Type} (e : JsError) : Implements (Rd.throw e : Rd α) (P.throw e) := by
  intro r
  refine ⟨?_, ?_, ?_⟩
  · intro b rest h; cases h
  · intro e h; cases h; rfl
  · intro h; cases h

theorem Rd.bind_of {α β : Type} {d : Rd α} {f : α → Rd β} {r r' : Reader} {a : α}
    (h : d r = (.ok a, r')) : Rd.bind d f r = f a r' := by rw [Rd.bind, h]

theorem Rd.bind_thrown {α β : Type} {d : Rd α} {f : α → Rd β} {r : Reader} {e : JsError}
    (h : (d r).1 = .thrown e) : (Rd.bind d f r).1 = .thrown e := by
  rw [Rd.bind]
  cases hd : d r with
  | mk x r' =>
    rw [hd] at h
    dsimp only at h
    subst h
    rfl

theorem Rd.bind_starved {α β : Type} {d : Rd α} {f : α → Rd β} {r : Reader} {en : StreamEnd}
    (h : (d r).1 = starved en) : (Rd.bind d f r).1 = starved en := by
  cases en with
  | fin => exact Rd.bind_thrown h
  | failed e => exact Rd.bind_thrown h
  | idle =>
    rw [Rd.bind]
    cases hd : d r with
    | mk x r' =>
      rw [hd] at h
      dsimp only at h
      subst h
      rfl

theorem imp_bind {α β : Type} {d : Rd α} {p : P α} {f : α → Rd β} {g : α → P β}
    (h1 : Implements d p) (h2 : ∀ a, Implements (f a) (g a)) :
    Implements (Rd.bind d f) (P.bind p g) := by
  intro r
  cases hp : p r.all with
  | ok a rest =>
    obtain ⟨r', hd, hall, hend⟩ := (h1 r).1 a rest hp
    rw [Rd.bind_of hd, P.bind_ok hp, ← hall]
    obtain ⟨k1, k2, k3⟩ := h2 a r'
    refine ⟨?_, k2, ?_⟩
    · intro b rest hb
      obtain ⟨r'', e1, e2, e3⟩ := k1 b rest hb
      exact ⟨r'', e1, e2, e3.trans hend⟩
    · intro hs
      rw [← hend]
      exact k3 hs
  | thrown e =>
    rw [P.bind_thrown hp]
    refine ⟨?_, ?_, ?_⟩
    · intro b rest h; cases h
    · intro e' h
      cases h
      exact Rd.bind_thrown ((h1 r).2.1 e hp)
    · intro h; cases h
  | short =>
    rw [P.bind_short hp]
    refine ⟨?_, ?_, ?_⟩
    · intro b rest h; cases h
    · intro e' h; cases h
    · intro _
      exact Rd.bind_starved ((h1 r).2.2 hp)

/-- `#fillTo`: if enough bytes come, they are buffered. -/
theorem fillTo_enough (n : Nat) (r : Reader) (h : n ≤ r.all.length) :
    ∃ r', fillTo n r = (.ok (), r') ∧ r'.all = r.all ∧ n ≤ r'.buffer.length ∧
      r'.stream.ending = r.stream.ending := by
  obtain ⟨buffer, chunks, ending⟩ := r
  unfold fillTo
  dsimp only [Reader.all] at *
  induction chunks generalizing buffer with
  | nil =>
    rw [fillToLoop, if_neg (by simp at h; omega)]
    exact ⟨_, rfl, rfl, by simpa using h, rfl⟩
  | cons c cs ih =>
    rw [fillToLoop]
    split
    · obtain ⟨r', e1, e2, e3, e4⟩ := ih (buffer ++ c) (by simpa [Nat.add_assoc] using h)
      exact ⟨r', e1, by rw [e2]; simp, e3, e4⟩
    · exact ⟨_, rfl, rfl, by dsimp only; omega, rfl⟩

/-- `#fillTo`: if not enough bytes come, the method ends with the stream. -/
theorem fillTo_short (n : Nat) (r : Reader) (h : r.all.length < n) :
    (fillTo n r).1 = starved r.stream.ending := by
  obtain ⟨buffer, chunks, ending⟩ := r
  unfold fillTo
  dsimp only [Reader.all] at *
  induction chunks generalizing buffer with
  | nil =>
    rw [fillToLoop, if_pos (by simpa using h)]
    cases ending <;> rfl
  | cons c cs ih =>
    rw [fillToLoop, if_pos (by simp at h; omega)]
    exact ih (buffer ++ c) (by simpa [Nat.add_assoc] using h)

theorem slice_all (n : Nat) (r : Reader) (h : n ≤ r.buffer.length) :
    ∃ r', slice n r = (.ok (r.all.take n), r') ∧ r'.all = r.all.drop n ∧
      r'.stream.ending = r.stream.ending := by
  refine ⟨{ r with buffer := r.buffer.drop n }, ?_, ?_, rfl⟩
  · rw [slice, Reader.all, List.take_append_of_le_length h]
  · rw [Reader.all, Reader.all, List.drop_append_of_le_length h]

/-- The parser of `n` bytes. -/
def P.take (n : Nat) : P Bytes := fun bs =>
  if bs.length < n then .short else .ok (bs.take n) (bs.drop n)

theorem imp_fill_slice (n : Nat) : Implements (Rd.bind (fillTo n) fun _ => slice n) (P.take n) := by
  intro r
  unfold P.take
  by_cases h : r.all.length < n
  · rw [if_pos h]
    refine ⟨?_, ?_, ?_⟩
    · intro b rest h; cases h
    · intro e' h; cases h
    · intro _
      exact Rd.bind_starved (fillTo_short n r h)
  · rw [if_neg h]
    obtain ⟨r', e1, e2, e3, e4⟩ := fillTo_enough n r (by omega)
    obtain ⟨r'', f1, f2, f3⟩ := slice_all n r' e3
    refine ⟨?_, ?_, ?_⟩
    · intro b rest hb
      cases hb
      refine ⟨r'', ?_, ?_, ?_⟩
      · rw [Rd.bind_of e1, f1, e2]
      · rw [f2, e2]
      · rw [f3, e4]
    · intro e' h; cases h
    · intro h; cases h

theorem imp_read (n : Nat) : Implements (read n) (P.take n) := by
  unfold read
  split
  · rename_i h
    subst h
    have : P.take 0 = P.pure [] := by
      funext bs
      simp [P.take, P.pure]
    rw [this]
    exact imp_pure _
  · exact imp_fill_slice n

/-- The parser of a byte. -/
def P.u8 : P Nat := P.bind (P.take 1) fun b => P.pure (b.headD 0).toNat

theorem imp_u8 : Implements readU8 P.u8 := by
  have : readU8 = Rd.bind (Rd.bind (fillTo 1) fun _ => slice 1)
      fun b => Rd.pure (b.headD 0).toNat := by
    funext r
    unfold readU8
    simp only [Rd.bind]
    split <;> rfl
  rw [this]
  exact imp_bind (imp_fill_slice 1) fun _ => imp_pure _

/-- The parser of an integer: the one of the Rust implementation. -/
def P.u62 : P Nat := fun bs =>
  match decodeVarInt bs with
  | .ok (v, rest) => .ok v rest
  | .error _ => .short

theorem size_bits (b : UInt8) : (b.toNat &&& 0xc0) >>> 6 = b.toNat / 64 := by
  have : ∀ n : Fin 256, (n.val &&& 0xc0) >>> 6 = n.val / 64 := by decide +kernel
  exact this ⟨b.toNat, b.toNat_lt⟩

theorem fromBE_head (b : UInt8) (r : Bytes) (k : Nat) (hk : 8 * r.length + 8 = k + 2) :
    fromBE (b :: r) &&& (2 ^ k - 1) = b.toNat % 64 * 256 ^ r.length + fromBE r := by
  rw [Nat.and_two_pow_sub_one_eq_mod, fromBE_cons]
  have hr := fromBE_lt r
  have h256 : 256 ^ r.length = 2 ^ (8 * r.length) := by
    rw [show 256 = 2 ^ 8 from rfl, ← Nat.pow_mul]
  have hk2 : 2 ^ k = 64 * 256 ^ r.length := by
    rw [h256, show k = 6 + 8 * r.length by omega, Nat.pow_add]
  rw [hk2]
  have hb : b.toNat * 256 ^ r.length =
      b.toNat % 64 * 256 ^ r.length + 64 * 256 ^ r.length * (b.toNat / 64) := by
    conv => lhs; rw [← Nat.mod_add_div b.toNat 64]
    rw [Nat.add_mul]
    congr 1
    rw [Nat.mul_right_comm]
  rw [hb, Nat.add_right_comm, Nat.add_mul_mod_self_left, Nat.mod_eq_of_lt]
  have : b.toNat % 64 < 64 := Nat.mod_lt _ (by decide)
  calc b.toNat % 64 * 256 ^ r.length + fromBE r
      < b.toNat % 64 * 256 ^ r.length + 256 ^ r.length := by omega
    _ = (b.toNat % 64 + 1) * 256 ^ r.length := by rw [Nat.add_mul, Nat.one_mul]
    _ ≤ 64 * 256 ^ r.length := Nat.mul_le_mul_right _ (by omega)

theorem imp_u62 : Implements readU62 P.u62 := by
  intro r
  cases hall : r.all with
  | nil =>
    have hs : (readU62 r).1 = starved r.stream.ending :=
      Rd.bind_starved (fillTo_short 1 r (by rw [hall]; simp))
    refine ⟨?_, ?_, ?_⟩
    · intro a rest h; cases h
    · intro e h; cases h
    · intro _; exact hs
  | cons b bs =>
    obtain ⟨r1, e1, e2, e3, e4⟩ := fillTo_enough 1 r (by rw [hall]; simp)
    have hhead : r1.buffer.headD 0 = b := by
      rw [hall, Reader.all] at e2
      cases hb : r1.buffer with
      | nil => rw [hb] at e3; simp at e3
      | cons x xs => rw [hb, List.cons_append] at e2; injection e2
    have hpeek : peek r1 = (.ok b.toNat, r1) := by rw [peek, hhead]
    have hstep : ∀ n, Implements (Rd.bind (fillTo n) fun _ => Rd.bind (slice n) fun c =>
        Rd.pure (fromBE c &&& (2 ^ (8 * n - 2) - 1)))
        (P.bind (P.take n) fun c => P.pure (fromBE c &&& (2 ^ (8 * n - 2) - 1))) := by
      intro n
      have : (Rd.bind (fillTo n) fun _ => Rd.bind (slice n) fun c =>
          Rd.pure (fromBE c &&& (2 ^ (8 * n - 2) - 1))) =
          Rd.bind (Rd.bind (fillTo n) fun _ => slice n) fun c =>
            Rd.pure (fromBE c &&& (2 ^ (8 * n - 2) - 1)) := by
        funext r
        simp only [Rd.bind]
        split <;> rfl
      rw [this]
      exact imp_bind (imp_fill_slice n) fun _ => imp_pure _
    have hparse : ∀ n, tagLen b = n → 1 ≤ n →
        P.bind (P.take n) (fun c => P.pure (fromBE c &&& (2 ^ (8 * n - 2) - 1))) (b :: bs) =
          P.u62 (b :: bs) := by
      intro n hn h1
      rw [P.u62, decodeVarInt_cons, hn]
      by_cases hlt : bs.length < n - 1
      · rw [if_pos hlt, P.bind_short]
        rw [P.take, if_pos (by simp; omega)]
      · rw [if_neg hlt, P.bind_ok (a := (b :: bs).take n) (rest := (b :: bs).drop n)
          (by rw [P.take, if_neg (by simp; omega)])]
        obtain ⟨m, rfl⟩ : ∃ m, n = m + 1 := ⟨n - 1, by omega⟩
        rw [List.take_succ_cons, List.drop_succ_cons, P.pure]
        simp only [Nat.add_sub_cancel] at hlt ⊢
        rw [fromBE_head b (bs.take m) _ (by rw [List.length_take]; omega),
          List.length_take, Nat.min_eq_left (by omega)]
    have hred : readU62 r = (if b.toNat / 64 = 0 then
          (Rd.bind (slice 1) fun c => Rd.pure (fromBE c &&& 0x3f)) r1
        else if b.toNat / 64 = 1 then
          (Rd.bind (fillTo 2) fun _ => Rd.bind (slice 2) fun c => Rd.pure (fromBE c &&& 0x3fff)) r1
        else if b.toNat / 64 = 2 then
          (Rd.bind (fillTo 4) fun _ => Rd.bind (slice 4) fun c =>
            Rd.pure (fromBE c &&& 0x3fffffff)) r1
        else (Rd.bind (fillTo 8) fun _ => Rd.bind (slice 8) fun c =>
            Rd.pure (fromBE c &&& 0x3fffffffffffffff)) r1) := by
      unfold readU62
      rw [Rd.bind_of e1, Rd.bind_of hpeek, size_bits]
      split
      · rfl
      · split
        · rfl
        · split <;> rfl
    have hlift : ∀ n, tagLen b = n → 1 ≤ n →
        readU62 r = (Rd.bind (fillTo n) fun _ => Rd.bind (slice n) fun c =>
          Rd.pure (fromBE c &&& (2 ^ (8 * n - 2) - 1))) r1 →
        (∀ a rest, P.u62 (b :: bs) = .ok a rest → ∃ r', readU62 r = (.ok a, r') ∧ r'.all = rest ∧
          r'.stream.ending = r.stream.ending) ∧
        (∀ e, P.u62 (b :: bs) = .thrown e → (readU62 r).1 = .thrown e) ∧
        (P.u62 (b :: bs) = .short → (readU62 r).1 = starved r.stream.ending) := by
      intro n hn h1 hr
      have h := hstep n r1
      rw [e2, hall, hparse n hn h1, ← hr, e4] at h
      exact h
    have h4 : b.toNat / 64 = 0 ∨ b.toNat / 64 = 1 ∨ b.toNat / 64 = 2 ∨ b.toNat / 64 = 3 := by
      have : b.toNat < 256 := b.toNat_lt
      omega
    rcases h4 with h | h | h | h
    · refine hlift 1 (by simp [tagLen, h]) (by omega) ?_
      rw [hred, if_pos h]
      have : fillTo 1 r1 = (.ok (), r1) := by
        obtain ⟨bu, ch, en⟩ := r1
        rw [fillTo, fillToLoop.eq_def]
        dsimp only at e3 ⊢
        rw [if_neg (by omega)]
      rw [Rd.bind_of this]
      rfl
    · refine hlift 2 (by simp [tagLen, h]) (by omega) ?_
      rw [hred, if_neg (by omega), if_pos h]
      rfl
    · refine hlift 4 (by simp [tagLen, h]) (by omega) ?_
      rw [hred, if_neg (by omega), if_neg (by omega), if_pos h]
      rfl
    · refine hlift 8 (by simp [tagLen, h]) (by omega) ?_
      rw [hred, if_neg (by omega), if_neg (by omega), if_neg (by omega)]
      rfl

/-! ## Parsers of the messages -/

def P.u53 : P Nat :=
  P.bind P.u62 fun v => if MAX_U53 < v then P.throw .tooLarge else P.pure v

theorem imp_ite {α : Type} {c : Prop} [Decidable c] {d e : Rd α} {p q : P α}
    (h1 : Implements d p) (h2 : Implements e q) :
    Implements (if c then d else e) (if c then p else q) := by
  split
  · exact h1
  · exact h2

theorem imp_u53 : Implements readU53 P.u53 :=
  imp_bind imp_u62 fun _ => imp_ite (imp_throw _) (imp_pure _)

def P.string (L : Lossy) : P JsString :=
  P.bind P.u53 fun n => P.bind (P.take n) fun b => P.pure (textDecode L b)

theorem imp_string (L : Lossy) : Implements (readString L) (P.string L) :=
  imp_bind imp_u53 fun n => imp_bind (imp_read n) fun _ => imp_pure _

def P.announce (L : Lossy) : P Announce :=
  P.bind P.u53 fun a => P.bind (P.string L) fun s => P.pure ⟨s, a == 1⟩

theorem imp_announce (L : Lossy) : Implements (Announce.decode L) (P.announce L) :=
  imp_bind imp_u53 fun _ => imp_bind (imp_string L) fun _ => imp_pure _

def P.interest (L : Lossy) : P AnnounceInterest :=
  P.bind (P.string L) fun s => P.pure ⟨s⟩

theorem imp_interest (L : Lossy) : Implements (AnnounceInterest.decode L) (P.interest L) :=
  imp_bind (imp_string L) fun _ => imp_pure _

def P.group : P Group := P.bind P.u62 fun a => P.bind P.u53 fun b => P.pure ⟨a, b⟩

theorem imp_group : Implements Group.decode P.group :=
  imp_bind imp_u62 fun _ => imp_bind imp_u53 fun _ => imp_pure _

def P.frame : P Bytes := P.bind P.u53 fun n => P.take n

theorem imp_frame : Implements decodeFrame P.frame := imp_bind imp_u53 fun n => imp_read n

def P.subscribe (L : Lossy) : P Subscribe :=
  P.bind P.u62 fun id => P.bind (P.string L) fun b => P.bind (P.string L) fun t =>
    P.bind P.u53 fun p => P.pure ⟨id, b, t, p⟩

theorem imp_subscribe (L : Lossy) : Implements (Subscribe.decode L) (P.subscribe L) :=
  imp_bind imp_u62 fun _ => imp_bind (imp_string L) fun _ => imp_bind (imp_string L) fun _ =>
    imp_bind imp_u53 fun _ => imp_pure _

def P.entries : Nat → Extensions → P Extensions
  | 0, map => P.pure map
  | n + 1, map =>
    P.bind P.u62 fun id => P.bind P.u53 fun size => P.bind (P.take size) fun value =>
      if map.any (fun e => e.1 == id) then P.throw .duplicate
      else P.entries n (map ++ [(id, value)])

theorem imp_entries (n : Nat) (map : Extensions) :
    Implements (decodeEntries n map) (P.entries n map) := by
  induction n generalizing map with
  | zero => exact imp_pure _
  | succ n ih =>
    exact imp_bind imp_u62 fun id => imp_bind imp_u53 fun size => imp_bind (imp_read size)
      fun value => imp_ite (imp_throw _) (ih _)

def P.extensions : P Extensions := P.bind P.u53 fun n => P.entries n []

theorem imp_extensions : Implements decodeExtensions P.extensions :=
  imp_bind imp_u53 fun n => imp_entries n []

def P.versions : Nat → List Nat → P (List Nat)
  | 0, vs => P.pure vs
  | n + 1, vs => P.bind P.u53 fun v => P.versions n (vs ++ [v])

theorem imp_versions (n : Nat) (vs : List Nat) :
    Implements (decodeVersions n vs) (P.versions n vs) := by
  induction n generalizing vs with
  | zero => exact imp_pure _
  | succ n ih => exact imp_bind imp_u53 fun _ => ih _

def P.client : P SessionClient :=
  P.bind P.u53 fun n => P.bind (P.versions n []) fun vs => P.bind P.extensions fun es =>
    P.pure ⟨vs, es⟩

theorem imp_client : Implements SessionClient.decode P.client :=
  imp_bind imp_u53 fun n => imp_bind (imp_versions n []) fun _ => imp_bind imp_extensions fun _ =>
    imp_pure _

def P.server : P SessionServer :=
  P.bind P.u53 fun v => P.bind P.extensions fun es => P.pure ⟨v, es⟩

theorem imp_server : Implements SessionServer.decode P.server :=
  imp_bind imp_u53 fun _ => imp_bind imp_extensions fun _ => imp_pure _

def P.bi (L : Lossy) : P StreamBi :=
  P.bind P.u8 fun typ =>
    if typ = 0 then P.bind P.client fun m => P.pure (.session m)
    else if typ = 1 then P.bind (P.interest L) fun m => P.pure (.announce m)
    else if typ = 2 then P.bind (P.subscribe L) fun m => P.pure (.subscribe m)
    else P.throw (.unknownType typ)

theorem imp_bi (L : Lossy) : Implements (acceptBi L) (P.bi L) :=
  imp_bind imp_u8 fun _ =>
    imp_ite (imp_bind imp_client fun _ => imp_pure _)
      (imp_ite (imp_bind (imp_interest L) fun _ => imp_pure _)
        (imp_ite (imp_bind (imp_subscribe L) fun _ => imp_pure _) (imp_throw _)))

def P.uni : P Group :=
  P.bind P.u8 fun typ => if typ = 0 then P.group else P.throw (.unknownType typ)

theorem imp_uni : Implements acceptUni P.uni :=
  imp_bind imp_u8 fun _ => imp_ite imp_group (imp_throw _)

def P.answer : P Unit :=
  P.bind P.server fun server =>
    if server.version ≠ CURRENT_VERSION then P.throw (.unsupportedVersion server.version)
    else P.pure ()

theorem imp_answer : Implements connectAnswer P.answer :=
  imp_bind imp_server fun _ => imp_ite (imp_throw _) (imp_pure _)

/-! ## Writers -/

theorem seq_none {a b : Wr} : (a ⨟ b).thrown = none ↔ a.thrown = none ∧ b.thrown = none := by
  unfold Wr.seq
  cases h : a.thrown <;> simp

theorem seq_bytes {a b : Wr} (h : a.thrown = none) : (a ⨟ b).bytes = a.bytes ++ b.bytes := by
  unfold Wr.seq
  rw [h]

theorem seq_thrown_left {a b : Wr} {e : JsError} (h : a.thrown = some e) :
    (a ⨟ b).thrown = some e := by
  unfold Wr.seq
  rw [h]

theorem seq_thrown_right {a b : Wr} (h : a.thrown = none) : (a ⨟ b).thrown = b.thrown := by
  unfold Wr.seq
  rw [h]

theorem or_high (k t v : Nat) (hv : v < 2 ^ k) : v ||| (t <<< k) = t * 2 ^ k + v := by
  rw [Nat.or_comm, ← Nat.shiftLeft_add_eq_or_of_lt hv, Nat.shiftLeft_eq]

/-- `u53` writes a number as the Rust encoder does. -/
theorem writeU53_ok (v : Nat) (h : v ≤ MAX_U53) :
    (writeU53 v).thrown = none ∧ wire (encodeU64 v) = .ok (writeU53 v).bytes := by
  have h62 : v < 2 ^ 62 := by unfold MAX_U53 at h; omega
  have hw : ∀ bs, wire (VarInt.encode v) = .ok bs → wire (encodeU64 v) = .ok bs :=
    fun bs hb => encodeU64_ok.2 ⟨h62, hb⟩
  unfold writeU53
  rw [if_neg (by omega)]
  unfold setVint53
  split
  · rename_i h6
    refine ⟨rfl, hw _ ?_⟩
    rw [wire_varint v h62, if_pos (by unfold MAX_U6 at h6; omega)]
    rfl
  split
  · rename_i h6 h14
    unfold MAX_U6 at h6
    unfold MAX_U14 at h14
    refine ⟨rfl, hw _ ?_⟩
    rw [wire_varint v h62, if_neg (by omega), if_pos (by omega)]
    show _ = Except.ok (toBE 2 (v ||| (1 <<< 14)))
    rw [or_high 14 1 v (by omega), Nat.one_mul]
  split
  · rename_i h6 h14 h30
    unfold MAX_U6 at h6
    unfold MAX_U14 at h14
    unfold MAX_U30 at h30
    refine ⟨rfl, hw _ ?_⟩
    rw [wire_varint v h62, if_neg (by omega), if_neg (by omega), if_pos (by omega)]
    show _ = Except.ok (toBE 4 (v ||| (2 <<< 30)))
    rw [or_high 30 2 v (by omega)]
  · rename_i h6 h14 h30
    unfold MAX_U6 at h6
    unfold MAX_U14 at h14
    unfold MAX_U30 at h30
    refine ⟨rfl, hw _ ?_⟩
    rw [wire_varint v h62, if_neg (by omega), if_neg (by omega), if_neg (by omega)]
    show _ = Except.ok (toBE 8 (v ||| (3 <<< 62)))
    rw [or_high 62 3 v (by omega)]

theorem writeU53_thrown (v : Nat) (h : MAX_U53 < v) : (writeU53 v).thrown = some .tooLarge := by
  unfold writeU53
  rw [if_pos h]

theorem writeU62_none (v : Nat) : (writeU62 v).thrown = none := by
  unfold writeU62 setVint62
  split
  · rfl
  · split
    · rfl
    · split <;> rfl

/-- `u62` writes a number so that the Rust decoder reads it. -/
theorem writeU62_decodes (v : Nat) (h : v < 2 ^ 62) (rest : Bytes) :
    decodeU64 ((writeU62 v).bytes ++ rest) = .ok (v, rest) := by
  unfold decodeU64 writeU62 setVint62
  split
  · rename_i h6
    unfold MAX_U6 at h6
    show decodeVarInt (toBE 1 v ++ rest) = _
    simpa using decodeVarInt_tagged 1 0 v rest rfl (by omega) (by omega)
  split
  · rename_i h6 h14
    unfold MAX_U6 at h6
    unfold MAX_U14 at h14
    show decodeVarInt (toBE 2 (v ||| (1 <<< 14)) ++ rest) = _
    rw [or_high 14 1 v (by omega)]
    simpa using decodeVarInt_tagged 2 1 v rest rfl (by omega) (by omega)
  split
  · rename_i h6 h14 h30
    unfold MAX_U30 at h30
    show decodeVarInt (toBE 4 (v ||| (2 <<< 30)) ++ rest) = _
    rw [or_high 30 2 v (by omega)]
    simpa using decodeVarInt_tagged 4 2 v rest rfl (by omega) (by omega)
  · show decodeVarInt (toBE 8 (v ||| (3 <<< 62)) ++ rest) = _
    rw [or_high 62 3 v (by omega)]
    simpa using decodeVarInt_tagged 8 3 v rest rfl (by omega) (by omega)

end Verif.Js
