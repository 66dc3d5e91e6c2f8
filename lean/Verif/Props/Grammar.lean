import Verif.Props.Coding
import Verif.Props.Message

/-!
# Property C71: the decoders accept exactly the wire format, and C72: extensions

The wire format is given as a relation between byte strings and messages, without reference to
the decoders or encoders.
-/

set_option autoImplicit false

namespace Verif.Props.Grammar

open Verif Verif.Coding Verif.Message Verif.Props.Coding Verif.Props.Message

/-! ## Specification: the wire format -/

/-- A format relates byte strings to values. -/
abbrev Format (α : Type) := Bytes → α → Prop

/-- A variable-length integer (RFC 9000, section 16): the two top bits of the first byte give
the length (1, 2, 4 or 8 bytes), the other bits are the value, most significant first. -/
def Varint : Format Nat := fun bs n =>
  ∃ first rest, bs = first :: rest ∧ bs.length = 2 ^ (first.toNat / 64) ∧
    n = bigEndian bs % 2 ^ (8 * bs.length - 2)

/-- One byte. -/
def Byte : Format UInt8 := fun bs b => bs = [b]

/-- Values one after the other. -/
inductive Items {α : Type} (F : Format α) : Format (List α)
  | nil : Items F [] []
  | cons {b1 b2 : Bytes} {x : α} {xs : List α} :
      F b1 x → Items F b2 xs → Items F (b1 ++ b2) (x :: xs)

/-- The number of values, then the values. -/
def Counted {α : Type} (F : Format α) : Format (List α) := fun bs xs =>
  ∃ len items, bs = len ++ items ∧ Varint len xs.length ∧ Items F items xs

/-- Length-prefixed bytes. -/
def Blob : Format Bytes := fun bs b => ∃ len, bs = len ++ b ∧ Varint len b.length

/-- Length-prefixed UTF-8. -/
def Text : Format String := fun bs s => Blob bs s.toUTF8.data.toList

/-- A parameter: its kind and its payload. -/
def Param : Format (Nat × Bytes) := fun bs p =>
  ∃ b1 b2, bs = b1 ++ b2 ∧ Varint b1 p.1 ∧ Blob b2 p.2

/-- The wire format of every kind of message. -/
def Wire : (k : Kind) → Format k.Ty
  /- status byte (0 ended, 1 active), suffix -/
  | .announce => fun bs m =>
      ∃ b, Text b m.suffix ∧ match m with
        | .active _ => bs = 1 :: b
        | .ended _ => bs = 0 :: b
  | .announceRequest => fun bs m => Text bs m.prefix
  /- the parameters, no kind twice -/
  | .extensions => fun bs m => Counted Param bs m ∧ DistinctKinds m
  | .frame => fun bs m => Varint bs m.size
  | .group => fun bs m => ∃ b1 b2, bs = b1 ++ b2 ∧ Varint b1 m.subscribe ∧ Varint b2 m.sequence
  /- zero stands for no bitrate -/
  | .sessionInfo => fun bs m =>
      match m.bitrate with
      | none => Varint bs 0
      | some n => n ≠ 0 ∧ Varint bs n
  | .version => fun bs v => Varint bs v
  | .versions => fun bs vs => Counted Varint bs vs
  | .clientSetup => fun bs m => ∃ b1 b2, bs = b1 ++ b2 ∧ Counted Varint b1 m.versions ∧
      Counted Param b2 m.extensions ∧ DistinctKinds m.extensions
  | .serverSetup => fun bs m => ∃ b1 b2, bs = b1 ++ b2 ∧ Varint b1 m.version ∧
      Counted Param b2 m.extensions ∧ DistinctKinds m.extensions
  | .controlType => fun bs m =>
      match m with
      | .session => Varint bs 0
      | .announce => Varint bs 1
      | .subscribe => Varint bs 2
  | .dataType => fun bs _ => Varint bs 0
  | .subscribe => fun bs m => ∃ b1 b2 b3, bs = b1 ++ b2 ++ b3 ++ [m.priority] ∧
      Varint b1 m.id ∧ Text b2 m.broadcast ∧ Text b3 m.track
  | .subscribeOk => fun bs m => bs = [m.priority]

/-- A decoder accepts exactly a format: it returns a value exactly if the input starts with that
value in the format, and leaves the rest. -/
def Accepts {α : Type} (d : Dec α) (F : Format α) : Prop :=
  ∀ bs a rest, d bs = .ok (a, rest) ↔ ∃ used, bs = used ++ rest ∧ F used a

/-! ## Helpers -/

theorem Accepts.congr {α : Type} {d : Dec α} {F G : Format α} (h : Accepts d F)
    (hFG : ∀ bs a, F bs a ↔ G bs a) : Accepts d G := by
  intro bs a rest
  rw [h]
  simp only [hFG]

theorem acc_pure {α : Type} (x : α) : Accepts (Dec.pure x) fun bs a => bs = [] ∧ a = x := by
  intro bs a rest
  rw [Dec.pure_apply, Except.ok.injEq, Prod.mk.injEq]
  constructor
  · rintro ⟨rfl, rfl⟩; exact ⟨[], rfl, rfl, rfl⟩
  · rintro ⟨_, rfl, rfl, rfl⟩; exact ⟨rfl, rfl⟩

theorem acc_fail {α : Type} (e : DecodeError) :
    Accepts (Dec.fail e : Dec α) fun _ _ => False := by
  intro bs a rest
  simp

theorem acc_bind {α β : Type} {d : Dec α} {f : α → Dec β} {F : Format α} {G : α → Format β}
    (hd : Accepts d F) (hf : ∀ a, Accepts (f a) (G a)) :
    Accepts (Dec.bind d f) fun bs b => ∃ a u v, bs = u ++ v ∧ F u a ∧ G a v b := by
  intro bs b rest
  constructor
  · intro h
    cases hx : d bs with
    | error e => rw [Dec.bind_error hx] at h; cases h
    | ok p =>
      obtain ⟨a, r⟩ := p
      rw [Dec.bind_ok hx] at h
      obtain ⟨u, rfl, hu⟩ := (hd _ _ _).1 hx
      obtain ⟨v, rfl, hv⟩ := (hf _ _ _ _).1 h
      exact ⟨u ++ v, by simp, a, u, v, rfl, hu, hv⟩
  · rintro ⟨_, rfl, a, u, v, rfl, hu, hv⟩
    rw [Dec.bind_ok ((hd _ a (v ++ rest)).2 ⟨u, by simp, hu⟩)]
    exact (hf _ _ _ _).2 ⟨v, rfl, hv⟩

theorem acc_bind' {α β : Type} {d : Dec α} {f : α → Dec β} {F : Format α} {G : α → Format β}
    (hd : Accepts d F) (hf : ∀ a, Accepts (f a) (G a)) :
    Accepts (d >>= f) fun bs b => ∃ a u v, bs = u ++ v ∧ F u a ∧ G a v b := acc_bind hd hf

theorem acc_pure' {α : Type} (x : α) : Accepts (Pure.pure x : Dec α) fun bs a => bs = [] ∧ a = x :=
  acc_pure x

theorem acc_u64 : Accepts decodeU64 Varint := by
  intro bs n rest
  cases bs with
  | nil =>
    constructor
    · intro h; cases h
    · rintro ⟨u, h, f, r, rfl, _⟩; cases h
  | cons b r =>
    rw [decode_eq]
    constructor
    · intro h
      split at h
      · cases h
      · rename_i hl
        injection h with h
        injection h with h1 h2
        have hlen : ((b :: r).take (announcedLength b)).length = announcedLength b := by
          rw [List.length_take]; omega
        refine ⟨(b :: r).take (announcedLength b), ?_, b, r.take (announcedLength b - 1), ?_, ?_, ?_⟩
        · rw [← h2, List.take_append_drop]
        · have hpos : announcedLength b = (announcedLength b - 1) + 1 := by
            rcases announcedLength_cases b with h | h | h | h <;> omega
          conv_lhs => rw [hpos]
          rw [List.take_succ_cons]
        · rw [hlen]; rfl
        · rw [hlen, h1]
    · rintro ⟨u, h, f, t, rfl, hl, hn⟩
      rw [List.cons_append] at h
      injection h with h1 h2
      subst h1 h2
      have hl' : (b :: t).length = announcedLength b := hl
      have e1 : (b :: (t ++ rest)).take (announcedLength b) = b :: t := by
        rw [← hl', ← List.cons_append, List.take_left']
        rfl
      have e2 : (b :: (t ++ rest)).drop (announcedLength b) = rest := by
        rw [← hl', ← List.cons_append, List.drop_left']
        rfl
      rw [if_neg (by rw [← hl']; simp only [List.length_cons, List.length_append]; omega), e1, e2,
        hn, hl']

theorem acc_u8 : Accepts decodeU8 Byte := by
  intro bs n rest
  cases bs with
  | nil =>
    constructor
    · intro h; cases h
    · rintro ⟨u, h, rfl⟩; cases h
  | cons b r =>
    simp only [decodeU8, Except.ok.injEq, Prod.mk.injEq]
    constructor
    · rintro ⟨rfl, rfl⟩; exact ⟨[b], rfl, rfl⟩
    · rintro ⟨u, h, rfl⟩
      rw [List.singleton_append] at h
      injection h with h1 h2
      exact ⟨h1, h2⟩

theorem acc_decodeN {α : Type} {d : Dec α} {F : Format α} (h : Accepts d F) (n : Nat) :
    Accepts (decodeN d n) fun bs xs => xs.length = n ∧ Items F bs xs := by
  induction n with
  | zero =>
    refine (acc_pure _).congr fun bs xs => ?_
    constructor
    · rintro ⟨rfl, rfl⟩; exact ⟨rfl, .nil⟩
    · rintro ⟨hl, hi⟩
      cases hi with
      | nil => exact ⟨rfl, rfl⟩
      | cons => simp at hl
  | succ n ih =>
    refine (acc_bind h fun x => acc_bind ih fun xs => acc_pure _).congr fun bs ys => ?_
    constructor
    · rintro ⟨x, u, v, rfl, hx, xs, u', v', rfl, ⟨rfl, hi⟩, rfl, rfl⟩
      rw [List.append_nil]
      exact ⟨rfl, .cons hx hi⟩
    · rintro ⟨hl, hi⟩
      cases hi with
      | nil => simp at hl
      | @cons b1 b2 x xs hx hxs =>
        exact ⟨x, b1, b2, rfl, hx, xs, b2, [], by simp, ⟨by simpa using hl, hxs⟩, rfl, rfl⟩

theorem acc_vec {α : Type} {d : Dec α} {F : Format α} (h : Accepts d F) :
    Accepts (decodeVec d) (Counted F) := by
  refine (acc_bind' acc_u64 fun n => acc_decodeN h n).congr fun bs xs => ?_
  constructor
  · rintro ⟨n, u, v, rfl, hn, rfl, hi⟩; exact ⟨u, v, rfl, hn, hi⟩
  · rintro ⟨u, v, rfl, hn, hi⟩; exact ⟨_, u, v, rfl, hn, rfl, hi⟩

theorem items_byte (bs xs : Bytes) : Items Byte bs xs ↔ bs = xs := by
  constructor
  · intro h
    induction h with
    | nil => rfl
    | cons h1 _ ih => rw [ih]; unfold Byte at h1; rw [h1]; rfl
  · rintro rfl
    induction bs with
    | nil => exact .nil
    | cons b bs ih => exact .cons (b1 := [b]) rfl ih

theorem counted_byte (bs xs : Bytes) : Counted Byte bs xs ↔ Blob bs xs := by
  unfold Counted Blob
  simp only [items_byte]
  constructor
  · rintro ⟨l, i, rfl, hl, rfl⟩; exact ⟨l, rfl, hl⟩
  · rintro ⟨l, rfl, hl⟩; exact ⟨l, xs, rfl, hl, rfl⟩

theorem acc_blob : Accepts (decodeVec decodeU8) Blob := (acc_vec acc_u8).congr counted_byte

theorem utf8_eq (s : String) : s.toUTF8.data.toList = strBytes s := rfl

theorem fromUtf8_iff (bs : Bytes) (s : String) : strFromUtf8 bs = some s ↔ bs = strBytes s := by
  constructor
  · intro h
    unfold strFromUtf8 String.fromUTF8? at h
    split at h
    · injection h with h
      subst h
      simp [strBytes, String.fromUTF8]
    · cases h
  · rintro rfl
    exact strFromUtf8_strBytes s

theorem acc_string : Accepts decodeString Text := by
  refine (acc_bind' (G := fun v bs s => bs = [] ∧ v = strBytes s) acc_blob fun v => ?_).congr ?_
  · cases hv : strFromUtf8 v with
    | none =>
      refine (acc_fail _).congr fun bs s => ?_
      rw [← fromUtf8_iff, hv]
      simp
    | some t =>
      refine (acc_pure' t).congr fun bs s => ?_
      rw [← fromUtf8_iff, hv]
      simp [eq_comm]
  · intro bs s
    unfold Text
    rw [utf8_eq]
    constructor
    · rintro ⟨a, u, v, rfl, hb, rfl, rfl⟩; rw [List.append_nil]; exact hb
    · intro h; exact ⟨_, bs, [], by simp, h, rfl, rfl⟩

theorem acc_params (n : Nat) (pre : Extensions) (hpre : DistinctKinds pre) :
    Accepts (decodeExtensionsLoop n pre) fun bs m =>
      ∃ xs, m = pre ++ xs ∧ xs.length = n ∧ Items Param bs xs ∧ DistinctKinds m := by
  induction n generalizing pre with
  | zero =>
    refine (acc_pure _).congr fun bs m => ?_
    constructor
    · rintro ⟨rfl, rfl⟩; exact ⟨[], by simp, rfl, .nil, hpre⟩
    · rintro ⟨xs, rfl, hl, hi, _⟩
      cases hi with
      | nil => simp
      | cons => simp at hl
  | succ n ih =>
    have hbody : ∀ kind, Accepts
        (if (Extensions.lookup pre kind).isSome then Dec.fail .duplicateParameter
          else Dec.bind (decodeVec decodeU8) fun data =>
            decodeExtensionsLoop n (pre ++ [(kind, data)]))
        fun bs m => (Extensions.lookup pre kind) = none ∧ ∃ data u v, bs = u ++ v ∧ Blob u data ∧
          ∃ xs, m = pre ++ (kind, data) :: xs ∧ xs.length = n ∧ Items Param v xs ∧
            DistinctKinds m := by
      intro kind
      cases hk : Extensions.lookup pre kind with
      | some b =>
        rw [if_pos (by simp)]
        exact (acc_fail _).congr fun bs m => by simp
      | none =>
        rw [if_neg (by simp)]
        have hdist : ∀ data : Bytes, DistinctKinds (pre ++ [(kind, data)]) := by
          intro data
          unfold DistinctKinds at hpre ⊢
          rw [List.map_append, List.nodup_append]
          refine ⟨hpre, by simp, ?_⟩
          intro a ha b hb hab
          simp only [List.map_cons, List.map_nil, List.mem_singleton] at hb
          subst hab hb
          obtain ⟨e, he, rfl⟩ := List.mem_map.1 ha
          unfold Extensions.lookup at hk
          rw [Option.map_eq_none_iff, List.find?_eq_none] at hk
          exact hk e he (by simp)
        refine (acc_bind acc_blob fun data => ih _ (hdist data)).congr fun bs m => ?_
        constructor
        · rintro ⟨data, u, v, rfl, hb, xs, rfl, hl, hi, hd⟩
          exact ⟨rfl, data, u, v, rfl, hb, xs, by simp, hl, hi, hd⟩
        · rintro ⟨-, data, u, v, rfl, hb, xs, rfl, hl, hi, hd⟩
          exact ⟨data, u, v, rfl, hb, xs, by simp, hl, hi, hd⟩
    refine (acc_bind acc_u64 hbody).congr fun bs m => ?_
    constructor
    · rintro ⟨kind, u, v, rfl, hk, -, data, u', v', rfl, hb, xs, rfl, hl, hi, hd⟩
      refine ⟨(kind, data) :: xs, rfl, by simp [hl], ?_, hd⟩
      rw [← List.append_assoc]
      exact .cons ⟨u, u', rfl, hk, hb⟩ hi
    · rintro ⟨ys, rfl, hl, hi, hd⟩
      cases hi with
      | nil => simp at hl
      | @cons b1 b2 x xs hx hxs =>
        obtain ⟨kind, data⟩ := x
        obtain ⟨u, u', rfl, hk, hb⟩ := hx
        refine ⟨kind, u, u' ++ b2, by simp, hk, ?_, data, u', b2, rfl, hb, xs, rfl,
          by simpa using hl, hxs, hd⟩
        unfold Extensions.lookup
        rw [Option.map_eq_none_iff, List.find?_eq_none]
        intro e he heq
        unfold DistinctKinds at hd
        rw [List.map_append, List.nodup_append] at hd
        exact hd.2.2 e.1 (List.mem_map_of_mem he) kind (by simp) (by simpa using heq)

theorem acc_extensions : Accepts decodeExtensions (Wire .extensions) := by
  refine (acc_bind acc_u64 fun n => acc_params n [] List.nodup_nil).congr fun bs m => ?_
  constructor
  · rintro ⟨n, u, v, rfl, hn, xs, rfl, rfl, hi, hd⟩
    exact ⟨⟨u, v, rfl, by simpa using hn, by simpa using hi⟩, hd⟩
  · rintro ⟨⟨u, v, rfl, hn, hi⟩, hd⟩
    exact ⟨_, u, v, rfl, hn, m, by simp, rfl, hi, hd⟩

theorem acc_versions : Accepts decodeVersions (Wire .versions) :=
  acc_vec (d := decodeVersion) acc_u64

theorem acc_announceStatus : Accepts decodeAnnounceStatus fun bs s =>
    match s with
    | .ended => bs = [0]
    | .active => bs = [1] := by
  refine (acc_bind' (G := fun b bs s => bs = [] ∧ b = match s with
    | .ended => 0
    | .active => 1) acc_u8 fun b => ?_).congr ?_
  · by_cases h0 : b = 0
    · subst h0
      refine (acc_pure' AnnounceStatus.ended).congr fun bs s => ?_
      cases s <;> simp
    · by_cases h1 : b = 1
      · subst h1
        refine (acc_pure' AnnounceStatus.active).congr fun bs s => ?_
        cases s <;> simp
      · rw [if_neg h0, if_neg h1]
        refine (acc_fail _).congr fun bs s => ?_
        cases s <;> simp [h0, h1]
  · intro bs s
    unfold Byte
    cases s <;> simp

theorem acc_announce : Accepts decodeAnnounce (Wire .announce) := by
  refine (acc_bind' (G := fun st bs m => Text bs m.suffix ∧ match m with
    | .active _ => st = AnnounceStatus.active
    | .ended _ => st = AnnounceStatus.ended) acc_announceStatus fun st => ?_).congr ?_
  · cases st with
    | active =>
      refine (acc_bind' acc_string fun s => acc_pure' (Announce.active s)).congr fun bs m => ?_
      constructor
      · rintro ⟨s, u, v, rfl, hs, rfl, rfl⟩; exact ⟨by rw [List.append_nil]; exact hs, rfl⟩
      · cases m with
        | active s => rintro ⟨hs, -⟩; exact ⟨s, bs, [], by simp, hs, rfl, rfl⟩
        | ended s => rintro ⟨-, h⟩; cases h
    | ended =>
      refine (acc_bind' acc_string fun s => acc_pure' (Announce.ended s)).congr fun bs m => ?_
      constructor
      · rintro ⟨s, u, v, rfl, hs, rfl, rfl⟩; exact ⟨by rw [List.append_nil]; exact hs, rfl⟩
      · cases m with
        | ended s => rintro ⟨hs, -⟩; exact ⟨s, bs, [], by simp, hs, rfl, rfl⟩
        | active s => rintro ⟨-, h⟩; cases h
  · intro bs m
    cases m with
    | active s =>
      constructor
      · rintro ⟨st, u, v, rfl, hst, hs, rfl⟩
        simp only at hst
        subst hst
        exact ⟨v, hs, rfl⟩
      · rintro ⟨b, hs, rfl⟩; exact ⟨.active, [1], b, rfl, rfl, hs, rfl⟩
    | ended s =>
      constructor
      · rintro ⟨st, u, v, rfl, hst, hs, rfl⟩
        simp only at hst
        subst hst
        exact ⟨v, hs, rfl⟩
      · rintro ⟨b, hs, rfl⟩; exact ⟨.ended, [0], b, rfl, rfl, hs, rfl⟩

/-- A decoder that reads one value and wraps it. -/
theorem acc_map {α β : Type} {d : Dec α} {F : Format α} (h : Accepts d F) (f : α → β) (g : β → α)
    (hf : ∀ a, g (f a) = a) (hg : ∀ b, f (g b) = b) :
    Accepts (d >>= fun a => Pure.pure (f a)) fun bs b => F bs (g b) := by
  refine (acc_bind' h fun a => acc_pure' (f a)).congr fun bs b => ?_
  constructor
  · rintro ⟨a, u, v, rfl, ha, rfl, rfl⟩; rw [List.append_nil, hf]; exact ha
  · intro hb; exact ⟨g b, bs, [], by simp, hb, rfl, (hg b).symm⟩

theorem acc_group : Accepts decodeGroup (Wire .group) := by
  refine (acc_bind' acc_u64 fun a => acc_bind' acc_u64 fun b => acc_pure' (Message.Group.mk a b)).congr
    fun bs m => ?_
  constructor
  · rintro ⟨a, u, v, rfl, ha, b, u', v', rfl, hb, rfl, rfl⟩
    exact ⟨u, u', by simp, ha, hb⟩
  · rintro ⟨u, v, rfl, ha, hb⟩
    exact ⟨_, u, v, rfl, ha, _, v, [], by simp, hb, rfl, rfl⟩

theorem acc_sessionInfo : Accepts decodeSessionInfo (Wire .sessionInfo) := by
  refine (acc_bind' (G := fun n bs m => bs = [] ∧ match m.bitrate with
    | none => n = 0
    | some k => k ≠ 0 ∧ n = k) acc_u64 fun n => ?_).congr ?_
  · cases n with
    | zero =>
      refine (acc_pure' (SessionInfo.mk none)).congr fun bs m => ?_
      obtain ⟨b⟩ := m
      cases b <;> simp; omega
    | succ n =>
      refine (acc_pure' (SessionInfo.mk (some (n + 1)))).congr fun bs m => ?_
      obtain ⟨b⟩ := m
      cases b <;> simp; omega
  · intro bs m
    obtain ⟨b⟩ := m
    cases b with
    | none =>
      constructor
      · rintro ⟨n, u, v, rfl, hn, rfl, rfl⟩; rw [List.append_nil]; exact hn
      · intro h; exact ⟨0, bs, [], by simp, h, rfl, rfl⟩
    | some k =>
      constructor
      · rintro ⟨n, u, v, rfl, hn, rfl, hk, rfl⟩; rw [List.append_nil]; exact ⟨hk, hn⟩
      · rintro ⟨hk, h⟩; exact ⟨k, bs, [], by simp, h, rfl, hk, rfl⟩

theorem acc_clientSetup : Accepts decodeClientSetup (Wire .clientSetup) := by
  refine (acc_bind' acc_versions fun a => acc_bind' acc_extensions fun b =>
    acc_pure' (ClientSetup.mk a b)).congr fun bs m => ?_
  constructor
  · rintro ⟨a, u, v, rfl, ha, b, u', v', rfl, hb, rfl, rfl⟩
    exact ⟨u, u', by simp, ha, hb⟩
  · rintro ⟨u, v, rfl, ha, hb⟩
    exact ⟨_, u, v, rfl, ha, _, v, [], by simp, hb, rfl, rfl⟩

theorem acc_serverSetup : Accepts decodeServerSetup (Wire .serverSetup) := by
  refine (acc_bind' (d := decodeVersion) acc_u64 fun a => acc_bind' acc_extensions fun b =>
    acc_pure' (ServerSetup.mk a b)).congr fun bs m => ?_
  constructor
  · rintro ⟨a, u, v, rfl, ha, b, u', v', rfl, hb, rfl, rfl⟩
    exact ⟨u, u', by simp, ha, hb⟩
  · rintro ⟨u, v, rfl, ha, hb⟩
    exact ⟨_, u, v, rfl, ha, _, v, [], by simp, hb, rfl, rfl⟩

theorem acc_controlType : Accepts decodeControlType (Wire .controlType) := by
  refine (acc_bind' (G := fun n bs m => bs = [] ∧ n = match m with
    | ControlType.session => 0
    | .announce => 1
    | .subscribe => 2) acc_u64 fun n => ?_).congr ?_
  · match n with
    | 0 => exact (acc_pure' ControlType.session).congr fun bs m => by cases m <;> simp
    | 1 => exact (acc_pure' ControlType.announce).congr fun bs m => by cases m <;> simp
    | 2 => exact (acc_pure' ControlType.subscribe).congr fun bs m => by cases m <;> simp
    | n + 3 => exact (acc_fail _).congr fun bs m => by cases m <;> simp
  · intro bs m
    cases m
    all_goals
      constructor
      · rintro ⟨n, u, v, rfl, hn, rfl, rfl⟩; rw [List.append_nil]; exact hn
      · intro h; exact ⟨_, bs, [], by simp, h, rfl, rfl⟩

theorem acc_dataType : Accepts decodeDataType (Wire .dataType) := by
  refine (acc_bind' (G := fun n bs _ => bs = [] ∧ n = 0) acc_u64 fun n => ?_).congr ?_
  · match n with
    | 0 => exact (acc_pure' DataType.group).congr fun bs m => by cases m; simp
    | n + 1 => exact (acc_fail _).congr fun bs m => by simp
  · intro bs m
    constructor
    · rintro ⟨n, u, v, rfl, hn, rfl, rfl⟩; rw [List.append_nil]; exact hn
    · intro h; exact ⟨_, bs, [], by simp, h, rfl, rfl⟩

theorem acc_subscribe : Accepts decodeSubscribe (Wire .subscribe) := by
  refine (acc_bind' acc_u64 fun a => acc_bind' acc_string fun b => acc_bind' acc_string fun c =>
    acc_bind' acc_u8 fun d => acc_pure' (Subscribe.mk a b c d)).congr fun bs m => ?_
  constructor
  · rintro ⟨a, u, v, rfl, ha, b, u', v', rfl, hb, c, u2, v2, rfl, hc, d, u3, v3, rfl, hd, rfl, rfl⟩
    unfold Byte at hd
    subst hd
    exact ⟨u, u', u2, by simp, ha, hb, hc⟩
  · rintro ⟨u, v, w, rfl, ha, hb, hc⟩
    exact ⟨_, u, v ++ w ++ [m.priority], by simp, ha, _, v, w ++ [m.priority], by simp, hb,
      _, w, [m.priority], rfl, hc, _, [m.priority], [], rfl, rfl, rfl, rfl⟩

/-! ## C71 -/

/-- **C71.**  For every kind of message, the decoder returns a message exactly if the input starts
with that message in the wire format, and leaves exactly what follows. -/
theorem c71_decoders_accept (k : Kind) (bs : Bytes) (m : k.Ty) (rest : Bytes) :
    k.dec bs = .ok (m, rest) ↔ ∃ used, bs = used ++ rest ∧ Wire k used m := by
  revert bs m rest
  show Accepts k.dec (Wire k)
  cases k with
  | announce => exact acc_announce
  | announceRequest => exact acc_map acc_string AnnounceRequest.mk (·.prefix) (fun _ => rfl) fun _ => rfl
  | extensions => exact acc_extensions
  | frame => exact acc_map acc_u64 Frame.mk (·.size) (fun _ => rfl) fun _ => rfl
  | group => exact acc_group
  | sessionInfo => exact acc_sessionInfo
  | version => exact acc_u64
  | versions => exact acc_versions
  | clientSetup => exact acc_clientSetup
  | serverSetup => exact acc_serverSetup
  | controlType => exact acc_controlType
  | dataType => exact acc_dataType
  | subscribe => exact acc_subscribe
  | subscribeOk => exact acc_map acc_u8 SubscribeOk.mk (·.priority) (fun _ => rfl) fun _ => rfl

/-- **C71.**  Everything the encoders write is in the wire format of the message (as the receiver
sees it, see C06 for the bitrate of zero). -/
theorem c71_encoders_conform (k : Kind) (m : k.Ty) (hm : k.Exists m) (bs : Bytes)
    (h : wire (k.enc m) = .ok bs) : ∃ m', k.Seen m m' ∧ Wire k bs m' := by
  obtain ⟨m', hd, hs⟩ := c06_messages_roundtrip k m hm bs [] h
  obtain ⟨used, hu, hw⟩ := (c71_decoders_accept k _ _ _).1 hd
  rw [List.append_nil, List.append_nil] at hu
  subst hu
  exact ⟨m', hs, hw⟩

/-- A subscribe message in the wire format, with a two-byte integer; and inputs that no decoder
may accept: a wrong status byte, a string that is not UTF-8, a parameter given twice. -/
example : decodeSubscribe [0x40, 70, 1, 97, 0, 9, 5] = .ok (⟨70, "a", "", 9⟩, [5]) := by
  decide +kernel

example : decodeAnnounce [2, 0] = .error .invalidValue ∧
    decodeAnnounceRequest [1, 0xff] = .error .invalidString ∧
    decodeExtensions [2, 7, 0, 7, 0] = .error .duplicateParameter := by
  decide +kernel

/-! ## C72 -/

/-- **C72.**  Setting an extension and reading it gives the value back; the other extensions are
unchanged; and no kind occurs twice. -/
theorem c72_set_get {α : Type} {enc : α → Enc} {dec : Dec α} (hr : RoundTrips enc dec) (id : Nat)
    (m m' : Extensions) (hm : DistinctKinds m) (e : α) (h : Extensions.set id enc m e = .ok m') :
    Extensions.get id dec m' = .ok (some e) ∧
    (∀ other, other ≠ id → ∀ {β : Type} (d : Dec β),
      Extensions.get other d m' = Extensions.get other d m) ∧
    DistinctKinds m' := by
  unfold Extensions.set at h
  split at h
  · rename_i v hv
    injection h with h
    subst h
    have hlook : ∀ k, Extensions.lookup (Extensions.insert m id v) k =
        if k = id then some v else Extensions.lookup m k := by
      intro k
      unfold Extensions.lookup Extensions.insert
      rw [List.find?_append]
      split
      · rename_i hk
        subst hk
        have : (m.filter fun e => e.1 != k).find? (fun e => e.1 == k) = none := by
          rw [List.find?_eq_none]
          intro x hx
          rw [List.mem_filter] at hx
          simpa using hx.2
        rw [this]
        simp
      · rename_i hk
        have h1 : (m.filter fun e => e.1 != id).find? (fun e => e.1 == k) =
            m.find? (fun e => e.1 == k) := by
          rw [List.find?_filter]
          congr 1
          funext x
          by_cases hx : x.1 = k
          · simp [hx, hk]
          · simp [hx]
        rw [h1]
        have h2 : [(id, v)].find? (fun e => e.1 == k) = none := by
          simp [Ne.symm hk]
        rw [h2, Option.or_none]
    refine ⟨?_, ?_, ?_⟩
    · unfold Extensions.get
      rw [hlook, if_pos rfl]
      have := hr e v [] hv
      rw [List.append_nil] at this
      simp only [this]
    · intro other ho β d
      unfold Extensions.get
      rw [hlook, if_neg ho]
    · unfold DistinctKinds Extensions.insert at *
      rw [List.map_append, List.nodup_append]
      refine ⟨?_, by simp, ?_⟩
      · exact List.Nodup.sublist (List.Sublist.map _ List.filter_sublist) hm
      · intro a ha b hb hab
        simp only [List.map_cons, List.map_nil, List.mem_singleton] at hb
        subst hab hb
        obtain ⟨x, hx, rfl⟩ := List.mem_map.1 ha
        rw [List.mem_filter] at hx
        simp at hx
  · cases h

theorem lookup_of_mem {m : Extensions} (hm : DistinctKinds m) {id : Nat} {v : Bytes}
    (hv : (id, v) ∈ m) : Extensions.lookup m id = some v := by
  unfold Extensions.lookup
  induction m with
  | nil => cases hv
  | cons p m ih =>
    have hm' := List.nodup_cons.1 hm
    by_cases hp : p.1 = id
    · rw [List.find?_cons_of_pos (by simpa using hp)]
      rcases List.mem_cons.1 hv with rfl | hv
      · rfl
      · exact absurd (List.mem_map_of_mem (f := Prod.fst) hv) (by rw [← hp]; exact hm'.1)
    · rw [List.find?_cons_of_neg (by simpa using hp)]
      rcases List.mem_cons.1 hv with rfl | hv
      · exact absurd rfl hp
      · exact ih hm'.2 hv

/-- **C72.**  An extension that is not there is reported as absent, and one whose payload is not
in its format is an error. -/
theorem c72_get {α : Type} (dec : Dec α) (id : Nat) (m : Extensions) :
    ((∀ p ∈ m, p.1 ≠ id) → Extensions.get id dec m = .ok none) ∧
    (DistinctKinds m → ∀ v, (id, v) ∈ m → Extensions.get id dec m =
      match dec v with
      | .ok (a, _) => .ok (some a)
      | .error e => .error e) := by
  constructor
  · intro h
    have : Extensions.lookup m id = none := by
      unfold Extensions.lookup
      rw [Option.map_eq_none_iff, List.find?_eq_none]
      intro p hp
      simpa using h p hp
    unfold Extensions.get
    rw [this]
  · intro hm v hv
    have := lookup_of_mem hm hv
    unfold Extensions.get
    cases hd : dec v <;> simp [this, hd]

/-- A case: a map with two parameters, one of them replaced. -/
example : DistinctKinds [(1, [5]), (2, [6])] ∧
    Extensions.set 1 encodeU64 [(1, [5]), (2, [6])] 70 = .ok [(2, [6]), (1, [0x40, 70])] := by
  refine ⟨by unfold DistinctKinds; decide, rfl⟩

end Verif.Props.Grammar
