import Verif.Js.WireLemmas

/-!
# More lemmas about the browser's reader: prefixes of messages, and reading until the end
-/

set_option autoImplicit false

namespace Verif.Js

open Verif Verif.Coding

open Verif.Session (RecvStream StreamEnd TransportError)

/-! ## Parsers decide on prefixes -/

/-- A parser that succeeds does so whatever follows the bytes it used, and asks for more on
every proper beginning of those. -/
def Sound {α : Type} (p : P α) : Prop := ∀ bs a rest, p bs = .ok a rest →
  ∃ used, bs = used ++ rest ∧ (∀ tail, p (used ++ tail) = .ok a tail) ∧
    ∀ c missing, used = c ++ missing → missing ≠ [] → p c = .short

theorem sound_pure {α : Type} (a : α) : Sound (P.pure a) := by
  intro bs b rest h
  cases h
  refine ⟨[], rfl, fun tail => rfl, fun c missing hc hm => ?_⟩
  exact absurd (List.append_eq_nil_iff.1 hc.symm).2 hm

theorem sound_throw {α : Type} (e : JsError) : Sound (P.throw e : P α) := by
  intro bs b rest h
  cases h

theorem sound_bind {α β : Type} {p : P α} {f : α → P β} (hp : Sound p) (hf : ∀ a, Sound (f a)) :
    Sound (P.bind p f) := by
  intro bs b rest h
  cases hd : p bs with
  | thrown e =>
    rw [P.bind_thrown hd] at h
    cases h
  | short =>
    rw [P.bind_short hd] at h
    cases h
  | ok a mid =>
    rw [P.bind_ok hd] at h
    obtain ⟨u1, rfl, a1, a2⟩ := hp _ _ _ hd
    obtain ⟨u2, rfl, b1, b2⟩ := hf a _ _ _ h
    refine ⟨u1 ++ u2, by simp, fun tail => ?_, fun c missing hc hm => ?_⟩
    · rw [List.append_assoc, P.bind_ok (a1 _), b1]
    · rcases List.append_eq_append_iff.1 hc with ⟨x, rfl, hx⟩ | ⟨x, rfl, hx⟩
      · rw [P.bind_ok (a1 x)]
        exact b2 x missing hx hm
      · by_cases h0 : x = []
        · subst h0
          have e := a1 []
          rw [List.append_nil] at e
          rw [List.nil_append] at hx
          have s := b2 [] missing (by rw [hx]; rfl) hm
          rw [List.append_nil] at e
          rw [P.bind_ok e]
          exact s
        · exact P.bind_short (a2 c x rfl h0)

theorem sound_ite {α : Type} {c : Prop} [Decidable c] {p q : P α} (hp : Sound p) (hq : Sound q) :
    Sound (if c then p else q) := by
  split
  · exact hp
  · exact hq

theorem sound_take (n : Nat) : Sound (P.take n) := by
  intro bs a rest h
  unfold P.take at h
  split at h
  · cases h
  · rename_i hn
    cases h
    refine ⟨bs.take n, (List.take_append_drop n bs).symm, fun tail => ?_, fun c missing hc hm => ?_⟩
    · have hl : (bs.take n).length = n := by rw [List.length_take]; omega
      rw [P.take, if_neg (by rw [List.length_append, hl]; omega), List.take_left' hl,
        List.drop_left' hl]
    · have hl : (bs.take n).length = n := by rw [List.length_take]; omega
      have := congrArg List.length hc
      rw [hl, List.length_append] at this
      have hpos : 0 < missing.length := List.length_pos_iff.2 hm
      rw [P.take, if_pos (by omega)]

theorem decodeVarInt_error (bs : Bytes) (e : DecodeError) (h : decodeVarInt bs = .error e) :
    P.u62 bs = .short := by rw [P.u62, h]

theorem sound_u62 : Sound P.u62 := by
  intro bs a rest h
  cases hd : decodeVarInt bs with
  | error e =>
    rw [decodeVarInt_error bs e hd] at h
    cases h
  | ok x =>
    obtain ⟨v, r⟩ := x
    rw [P.u62, hd] at h
    cases h
    obtain ⟨used, rfl, hu⟩ := good_u64.1 _ _ _ hd
    refine ⟨used, rfl, fun tail => by
      have := hu tail
      rw [decodeU64] at this
      rw [P.u62, this], fun c missing hc hm => ?_⟩
    cases hd' : decodeVarInt c with
    | error e => exact decodeVarInt_error c e hd'
    | ok y =>
      obtain ⟨v', r'⟩ := y
      obtain ⟨used', rfl, hu'⟩ := good_u64.1 c v' r' hd'
      have h1 := hu' (r' ++ missing)
      have h2 := hu []
      rw [List.append_nil] at h2
      rw [← List.append_assoc, ← hc, h2] at h1
      have h3 := congrArg (fun x : Except DecodeError (Nat × Bytes) =>
        match x with | .ok y => y.2 | .error _ => []) h1
      exact absurd (List.append_eq_nil_iff.1 h3.symm).2 hm

theorem sound_u53 : Sound P.u53 :=
  sound_bind sound_u62 fun _ => sound_ite (sound_throw _) (sound_pure _)

theorem sound_string (L : Lossy) : Sound (P.string L) :=
  sound_bind sound_u53 fun _ => sound_bind (sound_take _) fun _ => sound_pure _

theorem sound_announce (L : Lossy) : Sound (P.announce L) :=
  sound_bind sound_u53 fun _ => sound_bind (sound_string L) fun _ => sound_pure _

theorem sound_interest (L : Lossy) : Sound (P.interest L) :=
  sound_bind (sound_string L) fun _ => sound_pure _

theorem sound_group : Sound P.group :=
  sound_bind sound_u62 fun _ => sound_bind sound_u53 fun _ => sound_pure _

theorem sound_frame : Sound P.frame := sound_bind sound_u53 fun _ => sound_take _

theorem sound_subscribe (L : Lossy) : Sound (P.subscribe L) :=
  sound_bind sound_u62 fun _ => sound_bind (sound_string L) fun _ =>
    sound_bind (sound_string L) fun _ => sound_bind sound_u53 fun _ => sound_pure _

theorem sound_entries (n : Nat) (map : Extensions) : Sound (P.entries n map) := by
  induction n generalizing map with
  | zero => exact sound_pure _
  | succ n ih =>
    exact sound_bind sound_u62 fun _ => sound_bind sound_u53 fun _ =>
      sound_bind (sound_take _) fun _ => sound_ite (sound_throw _) (ih _)

theorem sound_extensions : Sound P.extensions := sound_bind sound_u53 fun _ => sound_entries _ _

theorem sound_versions (n : Nat) (vs : List Nat) : Sound (P.versions n vs) := by
  induction n generalizing vs with
  | zero => exact sound_pure _
  | succ n ih => exact sound_bind sound_u53 fun _ => ih _

theorem sound_client : Sound P.client :=
  sound_bind sound_u53 fun _ => sound_bind (sound_versions _ _) fun _ =>
    sound_bind sound_extensions fun _ => sound_pure _

theorem sound_server : Sound P.server :=
  sound_bind sound_u53 fun _ => sound_bind sound_extensions fun _ => sound_pure _

/-! ## Methods take pieces from the front -/

/-- The pieces left in the stream are the last ones. -/
def Keeps {α : Type} (d : Rd α) : Prop := ∀ r, (d r).2.stream.chunks <:+ r.stream.chunks

theorem keeps_pure {α : Type} (a : α) : Keeps (Rd.pure a) := fun _ => List.suffix_rfl

theorem keeps_throw {α : Type} (e : JsError) : Keeps (Rd.throw e : Rd α) :=
  fun _ => List.suffix_rfl

theorem keeps_bind {α β : Type} {d : Rd α} {f : α → Rd β} (hd : Keeps d) (hf : ∀ a, Keeps (f a)) :
    Keeps (Rd.bind d f) := by
  intro r
  have h := hd r
  unfold Rd.bind
  revert h
  generalize d r = x
  intro h
  obtain ⟨o, r'⟩ := x
  cases o with
  | ok a => exact (hf a r').trans h
  | thrown e => exact h
  | waiting => exact h

theorem keeps_ite {α : Type} {c : Prop} [Decidable c] {d e : Rd α} (hd : Keeps d) (he : Keeps e) :
    Keeps (if c then d else e) := by
  split
  · exact hd
  · exact he

theorem keeps_fillTo (n : Nat) : Keeps (fillTo n) := by
  rintro ⟨buffer, chunks, ending⟩
  show (fillToLoop n ending chunks buffer).2.stream.chunks <:+ chunks
  induction chunks generalizing buffer with
  | nil =>
    unfold fillToLoop
    split
    · cases ending <;> exact List.suffix_rfl
    · exact List.suffix_rfl
  | cons c chunks ih =>
    unfold fillToLoop
    split
    · exact (ih (buffer ++ c)).trans (List.suffix_cons c chunks)
    · exact List.suffix_rfl

theorem keeps_slice (n : Nat) : Keeps (slice n) := fun _ => List.suffix_rfl

theorem keeps_peek : Keeps peek := fun _ => List.suffix_rfl

theorem keeps_read (n : Nat) : Keeps (read n) :=
  keeps_ite (keeps_pure _) (keeps_bind (keeps_fillTo n) fun _ => keeps_slice n)

theorem keeps_u62 : Keeps readU62 :=
  keeps_bind (keeps_fillTo 1) fun _ => keeps_bind keeps_peek fun _ =>
    keeps_ite (keeps_bind (keeps_slice _) fun _ => keeps_pure _)
      (keeps_ite (keeps_bind (keeps_fillTo _) fun _ => keeps_bind (keeps_slice _) fun _ =>
          keeps_pure _)
        (keeps_ite (keeps_bind (keeps_fillTo _) fun _ => keeps_bind (keeps_slice _) fun _ =>
            keeps_pure _)
          (keeps_bind (keeps_fillTo _) fun _ => keeps_bind (keeps_slice _) fun _ =>
            keeps_pure _)))

theorem keeps_u53 : Keeps readU53 :=
  keeps_bind keeps_u62 fun _ => keeps_ite (keeps_throw _) (keeps_pure _)

theorem keeps_string (L : Lossy) : Keeps (readString L) :=
  keeps_bind keeps_u53 fun _ => keeps_bind (keeps_read _) fun _ => keeps_pure _

theorem keeps_announce (L : Lossy) : Keeps (Announce.decode L) :=
  keeps_bind keeps_u53 fun _ => keeps_bind (keeps_string L) fun _ => keeps_pure _

theorem keeps_interest (L : Lossy) : Keeps (AnnounceInterest.decode L) :=
  keeps_bind (keeps_string L) fun _ => keeps_pure _

theorem keeps_group : Keeps Group.decode :=
  keeps_bind keeps_u62 fun _ => keeps_bind keeps_u53 fun _ => keeps_pure _

theorem keeps_frame : Keeps decodeFrame := keeps_bind keeps_u53 fun _ => keeps_read _

theorem keeps_subscribe (L : Lossy) : Keeps (Subscribe.decode L) :=
  keeps_bind keeps_u62 fun _ => keeps_bind (keeps_string L) fun _ =>
    keeps_bind (keeps_string L) fun _ => keeps_bind keeps_u53 fun _ => keeps_pure _

theorem keeps_entries (n : Nat) (map : Extensions) : Keeps (decodeEntries n map) := by
  induction n generalizing map with
  | zero => exact keeps_pure _
  | succ n ih =>
    exact keeps_bind keeps_u62 fun _ => keeps_bind keeps_u53 fun _ =>
      keeps_bind (keeps_read _) fun _ => keeps_ite (keeps_throw _) (ih _)

theorem keeps_extensions : Keeps decodeExtensions :=
  keeps_bind keeps_u53 fun _ => keeps_entries _ _

theorem keeps_versions (n : Nat) (vs : List Nat) : Keeps (decodeVersions n vs) := by
  induction n generalizing vs with
  | zero => exact keeps_pure _
  | succ n ih => exact keeps_bind keeps_u53 fun _ => ih _

theorem keeps_client : Keeps SessionClient.decode :=
  keeps_bind keeps_u53 fun _ => keeps_bind (keeps_versions _ _) fun _ =>
    keeps_bind keeps_extensions fun _ => keeps_pure _

theorem keeps_server : Keeps SessionServer.decode :=
  keeps_bind keeps_u53 fun _ => keeps_bind keeps_extensions fun _ => keeps_pure _

/-! ## Reading until the end -/

/-- `done` while bytes are left. -/
theorem done_more (r : Reader) (hr : ∀ c ∈ r.stream.chunks, c ≠ []) (h : r.all ≠ []) :
    ∃ r', done r = (.ok false, r') ∧ r'.all = r.all ∧ r'.stream.ending = r.stream.ending ∧
      r'.stream.chunks <:+ r.stream.chunks := by
  obtain ⟨buffer, chunks, ending⟩ := r
  by_cases hb : 0 < buffer.length
  · refine ⟨_, ?_, rfl, rfl, List.suffix_rfl⟩
    unfold done
    rw [if_pos hb]
  · have hb : buffer = [] := List.length_eq_zero_iff.1 (by omega)
    subst hb
    cases chunks with
    | nil => exact absurd rfl h
    | cons c cs =>
      refine ⟨⟨c, ⟨cs, ending⟩⟩, rfl, ?_, rfl, List.suffix_cons c cs⟩
      simp [Reader.all]

/-- `done` when no byte is left. -/
theorem done_end (r : Reader) (hr : ∀ c ∈ r.stream.chunks, c ≠ []) (h : r.all = []) :
    (done r).1 = match r.stream.ending with
      | .fin => .ok true
      | .failed e => .thrown (.transport e)
      | .idle => .waiting := by
  obtain ⟨buffer, chunks, ending⟩ := r
  obtain ⟨hb, hc⟩ := List.append_eq_nil_iff.1 h
  have hb : buffer = [] := hb
  subst hb
  cases chunks with
  | nil => cases ending <;> rfl
  | cons c cs =>
    have := (List.append_eq_nil_iff.1 hc).1
    exact absurd this (hr c (by simp))

/-- `done` answers true only at the end of a finished stream, whatever the pieces. -/
theorem done_true (r : Reader) (h : (done r).1 = .ok true) :
    r.buffer = [] ∧ r.stream.chunks = [] ∧ r.stream.ending = .fin := by
  obtain ⟨buffer, chunks, ending⟩ := r
  unfold done at h
  split at h
  · cases h
  · rename_i hb
    have hb : buffer = [] := List.length_eq_zero_iff.1 (by simp only at hb; omega)
    subst hb
    cases chunks with
    | cons c cs => cases h
    | nil =>
      cases ending with
      | fin => exact ⟨rfl, rfl, rfl⟩
      | failed e => cases h
      | idle => cases h

end Verif.Js
