import Verif.Js.Download

/-!
# Property C115: downloading media in the browser's player
-/

set_option autoImplicit false

namespace Verif.Props.JsDownload

open Verif Verif.Js.Download

/-! ## Specification -/

/-- The signals, as they were set last. -/
def sig (tr : Trace) : Sig :=
  tr.foldl (fun g e => match e.1 with | .set g' _ => g' | _ => g) ⟨false, none, none⟩

/-- The player is asked for a track of a broadcast. -/
def Asked (g : Sig) (t b : Nat) : Prop := g.enabled = true ∧ g.selected = some t ∧ g.broadcast = some b

/-- Two settings of the signals ask for the same. -/
def Same (g g' : Sig) : Prop := ∀ t b, Asked g t b ↔ Asked g' t b

/-- The player was closed: by `close`, or, for video, by an error of a decoder. -/
def Shut (k : Kind) (tr : Trace) : Prop := (∃ o, (.close, o) ∈ tr) ∨ (k = .video ∧ ∃ i, (.fail i, .ok) ∈ tr)

/-- No decoder failed. -/
def Sound (tr : Trace) : Prop := ∀ i, (.fail i, .ok) ∉ tr

/-- What the network delivered to a download, while it was waiting. -/
def arrived (tr : Trace) (i : Nat) : List (Nat × Nat) :=
  tr.filterMap fun e =>
    match e with
    | (.settle j (.frame x d), .ok) => if j = i then some (x, d) else none
    | _ => none

/-- The chunks passed to the decoder of a download: data, and whether it is said to be a key frame. -/
def fed (tr : Trace) (i : Nat) : List (Nat × Bool) :=
  tr.filterMap fun e =>
    match e with
    | (_, .fed j d key) => if j = i then some (d, key) else none
    | _ => none

/-! ## Lemmas -/

theorem sig_snoc (tr : Trace) (op : Op) (o : Out) :
    sig (tr ++ [(op, o)]) = match op with | .set g _ => g | _ => sig tr := by
  unfold sig
  rw [List.foldl_append]
  cases op <;> rfl

theorem want_iff (g : Sig) (t b : Nat) : want g = some (t, b) ↔ Asked g t b := by
  obtain ⟨e, x, y⟩ := g
  unfold want Asked
  cases e <;> cases x <;> cases y <;> simp

theorem same_of_want {g g' : Sig} (h : want g = want g') : Same g g' :=
  fun t b => by rw [← want_iff, ← want_iff, h]

theorem Sound.left {tr : Trace} {e : Op × Out} (h : Sound (tr ++ [e])) : Sound tr :=
  fun i hi => h i (List.mem_append_left _ hi)

theorem shut_snoc (k : Kind) (tr : Trace) (op : Op) (o : Out) : Shut k (tr ++ [(op, o)]) ↔
    Shut k tr ∨ op = .close ∨ (k = .video ∧ ∃ i, op = .fail i ∧ o = .ok) := by
  unfold Shut
  simp only [List.mem_append, List.mem_singleton, Prod.mk.injEq]
  constructor
  · rintro (⟨x, h | h⟩ | ⟨h1, i, h | h⟩)
    · exact .inl (.inl ⟨x, h⟩)
    · exact .inr (.inl h.1.symm)
    · exact .inl (.inr ⟨h1, i, h⟩)
    · exact .inr (.inr ⟨h1, i, h.1.symm, h.2.symm⟩)
  · rintro ((⟨x, h⟩ | ⟨h1, i, h⟩) | h | ⟨h1, i, h, h'⟩)
    · exact .inl ⟨x, .inl h⟩
    · exact .inr ⟨h1, i, .inl h⟩
    · exact .inl ⟨o, .inr ⟨h.symm, rfl⟩⟩
    · exact .inr ⟨h1, i, .inr ⟨h.symm, h'.symm⟩⟩

theorem item_get (s : State) (i j : Nat) (f : Item → Item) :
    (onItem s i f).items[j]? = if i = j then (s.items[j]?).map f else s.items[j]? := by
  unfold onItem
  rw [List.getElem?_modify]
  split
  · rfl
  · simp

/-- What changes of items keep. -/
structure Plain (f : Item → Item) : Prop where
  track : ∀ x, (f x).track = x.track
  broadcast : ∀ x, (f x).broadcast = x.broadcast
  decoder : ∀ x, (f x).decoder = true → x.decoder = true

/-- The part of the invariant about signals. -/
structure Base (s : State) : Prop where
  last : ∀ i, s.current = some i → i + 1 = s.items.length
  gone : s.closed = true → s.current = none
  idle : s.closed = false → s.broken = false → want s.sig = none → s.current = none
  busy : s.closed = false → s.broken = false → ∀ t b, want s.sig = some (t, b) →
    ∃ i x, s.current = some i ∧ s.items[i]? = some x ∧ x.track = t ∧ x.broadcast = b

/-- Only the current download of audio has an open decoder. -/
def Own (s : State) : Prop := ∀ (i : Nat) (x : Item), s.items[i]? = some x → x.decoder = true → s.current = some i ∧ s.broken = false

/-- As long as no decoder fails, subscriptions are open as long as decoders. -/
def Tidy (s : State) : Prop :=
  s.broken = false ∧ ∀ (i : Nat) (x : Item), s.items[i]? = some x → x.sub = x.decoder ∧ (s.current = some i → x.decoder = true)

theorem Base.item {s : State} (h : Base s) (i : Nat) {f : Item → Item} (p : Plain f) : Base (onItem s i f) := by
  refine ⟨fun j hj => ?_, h.gone, h.idle, fun h1 h2 t b hw => ?_⟩
  · show _ = (s.items.modify i f).length
    rw [List.length_modify]
    exact h.last j hj
  · obtain ⟨j, x, e1, e2, e3, e4⟩ := h.busy h1 h2 t b hw
    refine ⟨j, if i = j then f x else x, e1, ?_, ?_, ?_⟩
    · rw [item_get, e2]
      split <;> rfl
    · split
      · rw [p.track, e3]
      · exact e3
    · split
      · rw [p.broadcast, e4]
      · exact e4

theorem Own.item {s : State} (h : Own s) (i : Nat) {f : Item → Item} (p : Plain f) : Own (onItem s i f) := by
  intro j x hx hd
  rw [item_get] at hx
  split at hx
  · cases hy : s.items[j]? with
    | none => rw [hy] at hx; cases hx
    | some y =>
      rw [hy] at hx
      cases hx
      exact h j y hy (p.decoder y hd)
  · exact h j x hx hd

/-- The effect has been cleaned up and runs. -/
theorem start_base {s : State} (hc : s.closed = false) : Base (start s) := by
  unfold start
  split
  · next t b hw =>
    refine ⟨fun i hi => ?_, fun h => ?_, fun _ _ h => ?_, fun _ _ t' b' h => ?_⟩
    · injection hi with hi
      simp [← hi]
    · exact absurd (hc ▸ h : false = true) Bool.false_ne_true
    · exact absurd (hw.symm.trans h) (by simp)
    · have := hw.symm.trans h
      cases this
      exact ⟨_, _, rfl, List.getElem?_concat_length, rfl, rfl⟩
  · next hw =>
    refine ⟨fun i hi => (by cases hi), fun _ => rfl, fun _ _ _ => rfl, fun _ _ t b h => ?_⟩
    exact absurd (hw.symm.trans h) (by simp)

/-- All decoders are closed before the effect runs. -/
theorem start_own {s : State} (ho : ∀ (i : Nat) (x : Item), s.items[i]? = some x → x.decoder = false) (hb : s.broken = false) : Own (start s) := by
  unfold start
  split
  · intro i x hx hd
    dsimp only at hx ⊢
    rw [List.getElem?_append] at hx
    split at hx
    · rw [ho i x hx] at hd; cases hd
    · have : i = s.items.length := by
        rcases Nat.lt_or_ge (i - s.items.length) 1 with h | h
        · omega
        · rw [List.getElem?_eq_none (by simpa using h)] at hx; cases hx
      exact ⟨by rw [this], hb⟩
  · intro i x hx hd
    rw [ho i x hx] at hd
    cases hd

theorem start_tidy {s : State} (ho : ∀ (i : Nat) (x : Item), s.items[i]? = some x → x.decoder = false ∧ x.sub = false)
    (hb : s.broken = false) : Tidy (start s) := by
  unfold start
  split
  · refine ⟨hb, fun i x hx => ?_⟩
    dsimp only at hx ⊢
    rw [List.getElem?_append] at hx
    split at hx
    · next hl =>
      obtain ⟨h1, h2⟩ := ho i x hx
      refine ⟨by rw [h1, h2], fun h => ?_⟩
      injection h with h
      omega
    · have : i = s.items.length := by
        rcases Nat.lt_or_ge (i - s.items.length) 1 with h | h
        · omega
        · rw [List.getElem?_eq_none (by simpa using h)] at hx; cases hx
      subst this
      simp at hx
      subst hx
      exact ⟨rfl, fun _ => rfl⟩
  · refine ⟨hb, fun i x hx => ?_⟩
    obtain ⟨h1, h2⟩ := ho i x hx
    exact ⟨by rw [h1, h2], fun h => by cases h⟩

/-- The cleanup of audio closes all decoders. -/
theorem cleanup_all {s : State} (ho : Own s) : ∀ (i : Nat) (x : Item), (cleanup .audio s).items[i]? = some x → x.decoder = false := by
  intro i x hx
  cases hd : x.decoder with
  | false => rfl
  | true =>
    exfalso
    unfold cleanup at hx
    cases hc : s.current with
    | none =>
      rw [hc] at hx
      have := (ho i x hx hd).1
      rw [hc] at this
      cases this
    | some j =>
      rw [hc] at hx
      dsimp only at hx
      split at hx
      · next ht =>
        have := (ho i x hx hd).1
        rw [hc] at this
        cases this
        unfold throws at ht
        rw [hc] at ht
        dsimp only at ht
        rw [hx] at ht
        simp [hd] at ht
      · rw [item_get] at hx
        split at hx
        · cases hy : s.items[i]? with
          | none => rw [hy] at hx; cases hx
          | some y => rw [hy] at hx; cases hx; cases hd
        · next hne =>
          have := (ho i x hx hd).1
          rw [hc] at this
          cases this
          exact hne rfl

theorem throws_all {s : State} (ho : Own s) (ht : throws .audio s = true) : ∀ (i : Nat) (x : Item), s.items[i]? = some x → x.decoder = false := by
  have := cleanup_all ho
  unfold cleanup at this
  rw [ht] at this
  split at this
  · exact this
  · exact this

theorem Tidy.calm {s : State} (h : Tidy s) (k : Kind) : throws k s = false := by
  unfold throws
  split
  · next i hc =>
    split
    · next x hx => rw [(h.2 i x hx).2 hc]; rfl
    · rfl
  · rfl

theorem Tidy.clean {s : State} (h : Tidy s) (ho : Own s) :
    ∀ (i : Nat) (x : Item), (cleanup .audio s).items[i]? = some x → x.decoder = false ∧ x.sub = false := by
  intro i x hx
  have hd := cleanup_all ho i x hx
  refine ⟨hd, ?_⟩
  unfold cleanup at hx
  cases hc : s.current with
  | none =>
    rw [hc] at hx
    rw [(h.2 i x hx).1, hd]
  | some j =>
    rw [hc] at hx
    dsimp only at hx
    rw [h.calm] at hx
    simp only [Bool.false_eq_true, if_false] at hx
    rw [item_get] at hx
    split at hx
    · cases hy : s.items[i]? with
      | none => rw [hy] at hx; cases hx
      | some y => rw [hy] at hx; cases hx; rfl
    · rw [(h.2 i x hx).1, hd]

theorem cleanup_same (k : Kind) (s : State) : (cleanup k s).sig = s.sig ∧ (cleanup k s).current = s.current ∧
    (cleanup k s).broken = s.broken ∧ (cleanup k s).closed = s.closed ∧ (cleanup k s).items.length = s.items.length := by
  unfold cleanup
  split
  · split
    · exact ⟨rfl, rfl, rfl, rfl, rfl⟩
    · exact ⟨rfl, rfl, rfl, rfl, by simp [onItem]⟩
  · exact ⟨rfl, rfl, rfl, rfl, rfl⟩

theorem start_same (s : State) : (start s).sig = s.sig ∧ (start s).closed = s.closed ∧ (start s).broken = s.broken := by
  unfold start
  split <;> exact ⟨rfl, rfl, rfl⟩

/-- State and history. -/
structure Inv (k : Kind) (tr : Trace) (s : State) : Prop where
  base : Base s
  sig : s.sig = sig tr
  shut : s.closed = true ↔ Shut k tr
  video : k = .video → s.broken = false
  own : k = .audio → Own s
  tidy : k = .audio → Sound tr → Tidy s

/-- A change of an item that is not a failure. -/
theorem Inv.item {k : Kind} {tr : Trace} {s : State} (h : Inv k tr s) (op : Op) (o : Out) (i : Nat) {f : Item → Item}
    (p : Plain f) (hf : k = .audio → Sound (tr ++ [(op, o)]) → ∀ x, (f x).sub = x.sub ∧ (f x).decoder = x.decoder)
    (ho : ∀ g again, op ≠ .set g again) (hc : op ≠ .close) (hx : ∀ j, k = .video → op = .fail j → o ≠ .ok) :
    Inv k (tr ++ [(op, o)]) (onItem s i f) := by
  refine ⟨h.base.item i p, ?_, ?_, h.video, fun hk => (h.own hk).item i p, fun hk hs => ?_⟩
  · rw [sig_snoc, ← h.sig]
    split
    · exact absurd rfl (ho _ _)
    · rfl
  · show s.closed = true ↔ _
    rw [shut_snoc, h.shut]
    refine ⟨.inl, ?_⟩
    rintro (h | h | ⟨h1, j, h2, h3⟩)
    · exact h
    · exact absurd h hc
    · exact absurd h3 (hx j h1 h2)
  · have ht := h.tidy hk hs.left
    refine ⟨ht.1, fun j x hj => ?_⟩
    rw [item_get] at hj
    split at hj
    · cases hy : s.items[j]? with
      | none => rw [hy] at hj; cases hj
      | some y =>
        rw [hy] at hj
        cases hj
        rw [(hf hk hs y).1, (hf hk hs y).2]
        exact ht.2 j y hy
    · exact ht.2 j x hj

theorem Inv.same {k : Kind} {tr : Trace} {s : State} (h : Inv k tr s) (op : Op) (o : Out)
    (ho : ∀ g again, op ≠ .set g again) (hc : op ≠ .close) (hx : ∀ j, k = .video → op = .fail j → o ≠ .ok) :
    Inv k (tr ++ [(op, o)]) s := by
  refine ⟨h.base, ?_, ?_, h.video, h.own, fun hk hs => h.tidy hk hs.left⟩
  · rw [sig_snoc, ← h.sig]
    split
    · exact absurd rfl (ho _ _)
    · rfl
  · rw [shut_snoc, h.shut]
    refine ⟨.inl, ?_⟩
    rintro (h | h | ⟨h1, j, h2, h3⟩)
    · exact h
    · exact absurd h hc
    · exact absurd h3 (hx j h1 h2)

theorem base_close {k : Kind} {s : State} : Base { cleanup k s with closed := true, current := none } :=
  ⟨fun i hi => (by cases hi), fun _ => rfl, fun _ _ _ => rfl, fun h => (by cases h)⟩

theorem finish_plain (k : Kind) : Plain (finish k) := by
  cases k <;> exact ⟨fun _ => rfl, fun _ => rfl, fun _ h => h⟩

theorem close_inv {k : Kind} {tr : Trace} {s : State} (h : Inv k tr s) (op : Op) (o : Out) (ho : ∀ g again, op ≠ .set g again)
    (hs : op = .close ∨ (k = .video ∧ ∃ i, op = .fail i ∧ o = .ok)) :
    Inv k (tr ++ [(op, o)]) (close k s).2 := by
  have hsig : s.sig = sig (tr ++ [(op, o)]) := by
    rw [sig_snoc, ← h.sig]
    split
    · exact absurd rfl (ho _ _)
    · rfl
  have hshut : Shut k (tr ++ [(op, o)]) := (shut_snoc k tr op o).2 (.inr hs)
  obtain ⟨c1, c2, c3, c4, c5⟩ := cleanup_same k s
  unfold close
  split
  · next hc => exact ⟨h.base, hsig, ⟨fun _ => hshut, fun _ => hc⟩, h.video, h.own, fun hk hs => h.tidy hk hs.left⟩
  · refine ⟨base_close, c1.trans hsig, ⟨fun _ => hshut, fun _ => rfl⟩, fun hk => c3.trans (h.video hk), fun hk => ?_, fun hk hso => ?_⟩
    · subst hk
      intro i x hx hd
      rw [cleanup_all (h.own rfl) i x hx] at hd
      cases hd
    · subst hk
      have ht := h.tidy rfl hso.left
      refine ⟨c3.trans ht.1, fun i x hx => ?_⟩
      obtain ⟨h1, h2⟩ := ht.clean (h.own rfl) i x hx
      exact ⟨by rw [h1, h2], fun h => (by cases h)⟩

theorem set_inv {k : Kind} {tr : Trace} {s : State} (h : Inv k tr s) (g : Sig) (again : Bool) :
    Inv k (tr ++ [(.set g again, (set k s g again).1)]) (set k s g again).2 := by
  have hsig : g = sig (tr ++ [(.set g again, (set k s g again).1)]) := by rw [sig_snoc]
  have hshut : Shut k (tr ++ [(.set g again, (set k s g again).1)]) ↔ s.closed = true := by
    rw [shut_snoc, h.shut]
    simp
  obtain ⟨c1, c2, c3, c4, c5⟩ := cleanup_same k s
  unfold Js.Download.set at hsig hshut ⊢
  split
  · next hw =>
    rw [if_pos hw] at hsig hshut
    refine ⟨⟨h.base.last, h.base.gone, ?_, ?_⟩, hsig, hshut.symm, h.video, h.own, fun hk hs => h.tidy hk hs.left⟩
    · intro h1 h2 h3
      rcases hw with hw | hw | hw
      · exact h.base.idle h1 h2 (hw ▸ h3)
      · exact absurd ((h1 : s.closed = false).symm.trans hw) Bool.false_ne_true
      · exact absurd ((h2 : s.broken = false).symm.trans hw) Bool.false_ne_true
    · intro h1 h2 t b h3
      rcases hw with hw | hw | hw
      · exact h.base.busy h1 h2 t b (hw ▸ h3)
      · exact absurd ((h1 : s.closed = false).symm.trans hw) Bool.false_ne_true
      · exact absurd ((h2 : s.broken = false).symm.trans hw) Bool.false_ne_true
  · next hw =>
    rw [if_neg hw] at hsig hshut
    have hc : s.closed = false := by
      cases hx : s.closed with
      | false => rfl
      | true => exact absurd (.inr (.inl hx)) hw
    have hb : s.broken = false := by
      cases hx : s.broken with
      | false => rfl
      | true => exact absurd (.inr (.inr hx)) hw
    split
    · next ht =>
      have hk : k = .audio := by
        cases k with
        | audio => rfl
        | video => simp [throws] at ht
      subst hk
      rw [if_pos ht] at hsig hshut
      have ho := throws_all (h.own rfl) ht
      have hno : ∀ {P : Prop} (tr' : Trace), Sound (tr ++ tr') → P := fun tr' hs => by
        have := (h.tidy rfl fun i hi => hs i (List.mem_append_left _ hi)).calm .audio
        rw [ht] at this
        cases this
      split
      · next ha =>
        rw [if_pos ha] at hsig hshut
        obtain ⟨s1, s2, s3⟩ := start_same { s with sig := g }
        exact ⟨start_base hc, s1.trans hsig, by rw [s2]; exact hshut.symm, fun h => (by cases h), fun _ => start_own ho hb,
          fun _ hs => hno _ hs⟩
      · next ha =>
        rw [if_neg ha] at hsig hshut
        refine ⟨⟨h.base.last, h.base.gone, fun _ h => (by cases h), fun _ h => (by cases h)⟩, hsig, hshut.symm,
          fun h => (by cases h), fun _ i x hx hd => ?_, fun _ hs => hno _ hs⟩
        rw [ho i x hx] at hd
        cases hd
    · next ht =>
      rw [if_neg ht] at hsig hshut
      obtain ⟨s1, s2, s3⟩ := start_same { cleanup k s with sig := g }
      refine ⟨start_base (c4.trans hc), s1.trans hsig, ?_, fun _ => s3.trans (c3.trans hb), fun hk => ?_, fun hk hs => ?_⟩
      · rw [s2]
        show (cleanup k s).closed = true ↔ _
        rw [c4]
        exact hshut.symm
      · subst hk
        exact start_own (cleanup_all (h.own rfl)) (c3.trans hb)
      · subst hk
        exact start_tidy ((h.tidy rfl hs.left).clean (h.own rfl)) (c3.trans hb)

theorem step_inv {k : Kind} {tr : Trace} {s : State} (h : Inv k tr s) (op : Op) :
    Inv k (tr ++ [(op, (step k s op).1)]) (step k s op).2 := by
  cases op with
  | set g again => exact set_inv h g again
  | close => exact close_inv h .close _ (by simp) (.inl rfl)
  | settle i n =>
    unfold step settle
    dsimp only
    split
    · split
      · exact h.item _ _ i ⟨fun _ => rfl, fun _ => rfl, fun _ h => h⟩ (fun _ _ x => ⟨rfl, rfl⟩) (by simp) (by simp) (by simp)
      · exact h.same _ _ (by simp) (by simp) (by simp)
    · exact h.same _ _ (by simp) (by simp) (by simp)
  | go i =>
    have hf : k = .audio → ∀ x, (finish k x).sub = x.sub ∧ (finish k x).decoder = x.decoder := by
      rintro rfl x
      exact ⟨rfl, rfl⟩
    unfold step go
    dsimp only
    split
    · exact h.same _ _ (by simp) (by simp) (by simp)
    · split
      · split
        · exact h.item _ _ i ⟨fun _ => rfl, fun _ => rfl, fun _ h => h⟩ (fun _ _ x => ⟨rfl, rfl⟩) (by simp) (by simp) (by simp)
        · exact h.item _ _ i (finish_plain k) (fun hk _ => hf hk) (by simp) (by simp) (by simp)
      · exact h.item _ _ i (finish_plain k) (fun hk _ => hf hk) (by simp) (by simp) (by simp)
      · exact h.item _ _ i (finish_plain k) (fun hk _ => hf hk) (by simp) (by simp) (by simp)
      · exact h.same _ _ (by simp) (by simp) (by simp)
  | fail i =>
    have p : Plain fun x => { x with decoder := false } := ⟨fun _ => rfl, fun _ => rfl, fun _ h => (by cases h)⟩
    unfold step fail
    dsimp only
    split
    · exact h.same _ _ (by simp) (by simp) (by simp)
    · split
      · cases k with
        | audio =>
          dsimp only
          refine h.item _ _ i p (fun _ hs => ?_) (by simp) (by simp) (by simp)
          exact absurd (by simp) (hs i)
        | video =>
          dsimp only
          have h' : Inv .video tr (onItem s i fun x => { x with decoder := false }) :=
            ⟨h.base.item i p, h.sig, h.shut, h.video, fun h => (by cases h), fun h => (by cases h)⟩
          exact close_inv h' (.fail i) .ok (by simp) (.inr ⟨rfl, i, rfl, rfl⟩)
      · exact h.same _ _ (by simp) (by simp) (by simp)

theorem inv_reach {k : Kind} {tr : Trace} {s : State} (h : (machine k).Reach tr s) : Inv k tr s :=
  Machine.Reach.induct (M := machine k) (P := fun tr s => Inv k tr s)
    ⟨⟨fun _ h => (by cases h), fun h => (by cases h), fun _ _ _ => rfl, fun _ _ _ _ h => (by cases h)⟩, rfl,
      ⟨fun h => (by cases h), fun h => by
        rcases h with ⟨_, h⟩ | ⟨_, _, h⟩ <;> cases h⟩, fun _ => rfl, fun _ _ _ h => (by simp [init] at h),
      fun _ _ => ⟨rfl, fun _ _ h => (by simp [init] at h)⟩⟩
    (fun _ _ op _ ih => step_inv ih op) h

theorem Own.last {s : State} (h : Own s) (b : Base s) {i : Nat} {x : Item} (hx : s.items[i]? = some x) (hd : x.decoder = true) :
    i + 1 = s.items.length ∧ s.closed = false ∧ want s.sig = some (x.track, x.broadcast) := by
  obtain ⟨h1, h2⟩ := h i x hx hd
  have hc : s.closed = false := by
    cases hx : s.closed with
    | false => rfl
    | true => rw [b.gone hx] at h1; cases h1
  refine ⟨b.last i h1, hc, ?_⟩
  cases hw : want s.sig with
  | none => rw [b.idle hc h2 hw] at h1; cases h1
  | some p =>
    obtain ⟨t, c⟩ := p
    obtain ⟨j, y, e1, e2, e3, e4⟩ := b.busy hc h2 t c hw
    rw [h1] at e1
    cases e1
    rw [hx] at e2
    cases e2
    rw [e3, e4]

/-! ## What is downloaded -/

/-- The newest download is what the signals ask for, until the player is closed; if a decoder of an audio player failed, a
cleanup may have thrown. -/
theorem c115_started {k : Kind} {tr : Trace} {s : State} (h : (machine k).Reach tr s) (hs : k = .audio → Sound tr)
    (hc : ¬ Shut k tr) (t b : Nat) (hw : Asked (sig tr) t b) :
    ∃ x, s.items.getLast? = some x ∧ x.track = t ∧ x.broadcast = b := by
  rw [← want_iff] at hw
  have i := inv_reach h
  have h1 : s.closed = false := by
    cases hx : s.closed with
    | false => rfl
    | true => exact absurd (i.shut.1 hx) hc
  have h2 : s.broken = false := by
    cases k with
    | audio => exact (i.tidy rfl (hs rfl)).1
    | video => exact i.video rfl
  rw [← i.sig] at hw
  obtain ⟨j, x, e1, e2, e3, e4⟩ := i.base.busy h1 h2 t b hw
  refine ⟨x, ?_, e3, e4⟩
  rw [List.getLast?_eq_getElem?]
  have := i.base.last j e1
  rw [← this]
  exact e2

/-- Audio, if no decoder fails: a subscription or decoder is open only if it is for what the signals ask for, it is the
newest, and the player is not closed; and that one is open. -/
theorem c115_one_partial {tr : Trace} {s : State} (h : (machine .audio).Reach tr s) (hs : Sound tr) :
    (∀ (i : Nat) x, s.items[i]? = some x → x.sub = true ∨ x.decoder = true →
      i + 1 = s.items.length ∧ ¬ Shut .audio tr ∧ Asked (sig tr) x.track x.broadcast) ∧
    (¬ Shut .audio tr → ∀ t b, Asked (sig tr) t b →
      ∃ x, s.items.getLast? = some x ∧ x.track = t ∧ x.broadcast = b ∧ x.sub = true ∧ x.decoder = true) := by
  simp only [← want_iff]
  have i := inv_reach h
  have ht := i.tidy rfl hs
  constructor
  · intro j x hx ho
    have hd : x.decoder = true := by
      rcases ho with ho | ho
      · rw [← (ht.2 j x hx).1]; exact ho
      · exact ho
    obtain ⟨h1, h2, h3⟩ := (i.own rfl).last i.base hx hd
    exact ⟨h1, fun h => (by rw [i.shut.2 h] at h2; cases h2), i.sig ▸ h3⟩
  · intro hc t b hw
    have h1 : s.closed = false := by
      cases hx : s.closed with
      | false => rfl
      | true => exact absurd (i.shut.1 hx) hc
    rw [← i.sig] at hw
    obtain ⟨j, x, e1, e2, e3, e4⟩ := i.base.busy h1 ht.1 t b hw
    obtain ⟨d1, d2⟩ := ht.2 j x e2
    refine ⟨x, ?_, e3, e4, by rw [d1, d2 e1], d2 e1⟩
    rw [List.getLast?_eq_getElem?, ← i.base.last j e1]
    exact e2

/-- Audio: a decoder is given data only while it is for what the signals ask for, and the player is not closed. -/
theorem c115_audio_fed {tr : Trace} {s : State} (h : (machine .audio).Reach tr s) (i d : Nat) (key : Bool)
    (hf : (step .audio s (.go i)).1 = .fed i d key) :
    ∃ x, s.items[i]? = some x ∧ i + 1 = s.items.length ∧ ¬ Shut .audio tr ∧ Asked (sig tr) x.track x.broadcast := by
  simp only [← want_iff]
  have v := inv_reach h
  unfold step go at hf
  dsimp only at hf
  split at hf
  · cases hf
  · next x hx =>
    refine ⟨x, hx, ?_⟩
    have hd : x.decoder = true := by
      split at hf
      · split at hf
        · assumption
        · cases hf
      · cases hf
      · cases hf
      · cases hf
    obtain ⟨h1, h2, h3⟩ := (v.own rfl).last v.base hx hd
    exact ⟨h1, fun h => (by rw [v.shut.2 h] at h2; cases h2), v.sig ▸ h3⟩

/-! ## What the decoders get -/

/-- How a frame is passed to the decoder. -/
def chunk (k : Kind) (f : Nat × Nat) : Nat × Bool :=
  (f.2, match k with
    | .audio => true
    | .video => decide (f.1 = 0))

theorem arrived_snoc (tr : Trace) (e : Op × Out) (i : Nat) : arrived (tr ++ [e]) i = arrived tr i ++ arrived [e] i := by
  unfold arrived
  rw [List.filterMap_append]

theorem fed_snoc (tr : Trace) (e : Op × Out) (i : Nat) : fed (tr ++ [e]) i = fed tr i ++ fed [e] i := by
  unfold fed
  rw [List.filterMap_append]

/-- Where a loop is. -/
def Where (k : Kind) (a : List (Nat × Nat)) (f : List (Nat × Bool)) : Loop → Prop
  | .waiting => f = a.map (chunk k)
  | .ready (.frame j d) => ∃ a', a = a' ++ [(j, d)] ∧ f = a'.map (chunk k)
  | .ready _ => f = a.map (chunk k)
  | .over => f <+: a.map (chunk k)

def Feeds (k : Kind) (tr : Trace) (s : State) : Prop :=
  (∀ i : Nat, s.items.length ≤ i → arrived tr i = [] ∧ fed tr i = []) ∧
  ∀ (i : Nat) (x : Item), s.items[i]? = some x → Where k (arrived tr i) (fed tr i) x.loop

/-- A step that leaves the loops. -/
theorem Feeds.same {k : Kind} {tr : Trace} {s s' : State} (h : Feeds k tr s) (e : Op × Out)
    (ha : ∀ i, arrived [e] i = []) (hf : ∀ i, fed [e] i = []) (hl : s.items.length ≤ s'.items.length)
    (hi : ∀ (i : Nat) (x : Item), s'.items[i]? = some x → (∃ y, s.items[i]? = some y ∧ y.loop = x.loop) ∨
      (s.items.length ≤ i ∧ x.loop = .waiting)) : Feeds k (tr ++ [e]) s' := by
  constructor
  · intro i hi
    rw [arrived_snoc, fed_snoc, ha, hf]
    simpa using h.1 i (Nat.le_trans hl hi)
  · intro i x hx
    rw [arrived_snoc, fed_snoc, ha, hf]
    simp only [List.append_nil]
    rcases hi i x hx with ⟨y, h1, h2⟩ | ⟨h1, h2⟩
    · rw [← h2]
      exact h.2 i y h1
    · rw [h2, (h.1 i h1).1, (h.1 i h1).2]
      rfl

/-- A step of a loop. -/
theorem Feeds.loop {k : Kind} {tr : Trace} {s : State} (h : Feeds k tr s) (e : Op × Out) (i : Nat) (x : Item)
    (hx : s.items[i]? = some x) (f : Item → Item) (ha : ∀ j, j ≠ i → arrived [e] j = []) (hf : ∀ j, j ≠ i → fed [e] j = [])
    (hw : Where k (arrived tr i) (fed tr i) x.loop →
      Where k (arrived tr i ++ arrived [e] i) (fed tr i ++ fed [e] i) (f x).loop) : Feeds k (tr ++ [e]) (onItem s i f) := by
  have hlt := (List.getElem?_eq_some_iff.1 hx).1
  constructor
  · intro j hj
    have hj : s.items.length ≤ j := by simpa [onItem] using hj
    rw [arrived_snoc, fed_snoc, ha j (by omega), hf j (by omega)]
    simpa using h.1 j hj
  · intro j y hy
    rw [item_get] at hy
    split at hy
    · next he =>
      subst he
      rw [hx] at hy
      cases hy
      rw [arrived_snoc, fed_snoc]
      exact hw (h.2 _ x hx)
    · next he =>
      rw [arrived_snoc, fed_snoc, ha j (Ne.symm he), hf j (Ne.symm he)]
      simpa using h.2 j y hy

theorem start_loops (s : State) : s.items.length ≤ (start s).items.length ∧
    ∀ (i : Nat) (x : Item), (start s).items[i]? = some x → (∃ y, s.items[i]? = some y ∧ y.loop = x.loop) ∨
      (s.items.length ≤ i ∧ x.loop = .waiting) := by
  unfold start
  split
  · refine ⟨by simp, fun i x hx => ?_⟩
    dsimp only at hx
    rw [List.getElem?_append] at hx
    split at hx
    · exact .inl ⟨x, hx, rfl⟩
    · next hn =>
      refine .inr ⟨by omega, ?_⟩
      have := List.mem_of_getElem? hx
      rw [List.mem_singleton.1 this]
  · exact ⟨Nat.le_refl _, fun i x hx => .inl ⟨x, hx, rfl⟩⟩

theorem item_loops {s : State} {i : Nat} {f : Item → Item} {j : Nat} {x : Item}
    (hx : (onItem s i f).items[j]? = some x) (hf : ∀ x, (f x).loop = x.loop) : ∃ y, s.items[j]? = some y ∧ y.loop = x.loop := by
  rw [item_get] at hx
  split at hx
  · cases hy : s.items[j]? with
    | none => rw [hy] at hx; cases hx
    | some y => rw [hy] at hx; cases hx; exact ⟨y, rfl, (hf y).symm⟩
  · exact ⟨x, hx, rfl⟩

theorem cleanup_loops (k : Kind) (s : State) (j : Nat) (x : Item) (hx : (cleanup k s).items[j]? = some x) :
    ∃ y, s.items[j]? = some y ∧ y.loop = x.loop := by
  unfold cleanup at hx
  split at hx
  · split at hx
    · exact ⟨x, hx, rfl⟩
    · exact item_loops hx fun _ => rfl
  · exact ⟨x, hx, rfl⟩

theorem close_loops (k : Kind) (s : State) : (close k s).2.items.length = s.items.length ∧
    ∀ (j : Nat) (x : Item), (close k s).2.items[j]? = some x → ∃ y, s.items[j]? = some y ∧ y.loop = x.loop := by
  unfold close
  split
  · exact ⟨rfl, fun j x hx => ⟨x, hx, rfl⟩⟩
  · exact ⟨(cleanup_same k s).2.2.2.2, fun j x hx => cleanup_loops k s j x hx⟩

theorem where_over {k : Kind} {a : List (Nat × Nat)} {f : List (Nat × Bool)} {l : Loop} (h : Where k a f l) :
    Where k a f .over := by
  cases l with
  | waiting =>
    have h : f = a.map (chunk k) := h
    show f <+: _
    rw [h]
    exact List.prefix_refl _
  | ready n =>
    cases n with
    | frame j d =>
      obtain ⟨a', h1, h2⟩ := h
      show f <+: _
      rw [h1, h2, List.map_append]
      exact List.prefix_append _ _
    | _ =>
      have h : f = a.map (chunk k) := h
      show f <+: _
      rw [h]
      exact List.prefix_refl _
  | over => exact h

theorem step_feeds {k : Kind} {tr : Trace} {s : State} (h : Feeds k tr s) (op : Op) :
    Feeds k (tr ++ [(op, (step k s op).1)]) (step k s op).2 := by
  have quiet : ∀ (op : Op) (o : Out), (∀ i n, op ≠ .settle i n) → (∀ i d key, o ≠ .fed i d key) →
      (∀ i, arrived [(op, o)] i = []) ∧ ∀ i, fed [(op, o)] i = [] := by
    intro op o h1 h2
    constructor
    · intro i
      cases op <;> first | exact absurd rfl (h1 _ _) | rfl
    · intro i
      cases o <;> first | exact absurd rfl (h2 _ _ _) | rfl
  have bad : ∀ i j, arrived [(.settle i j, .invalid)] = fun _ => [] := by
    intro i j
    funext m
    cases j <;> rfl
  cases op with
  | set g again =>
    unfold step Js.Download.set
    dsimp only
    split
    · obtain ⟨q1, q2⟩ := quiet (.set g again) .ok (by simp) (by simp)
      exact h.same _ q1 q2 (Nat.le_refl _) fun i x hx => .inl ⟨x, hx, rfl⟩
    · split
      · obtain ⟨q1, q2⟩ := quiet (.set g again) .threw (by simp) (by simp)
        split
        · exact h.same _ q1 q2 (start_loops { s with sig := g }).1 fun i x hx => (start_loops { s with sig := g }).2 i x hx
        · exact h.same _ q1 q2 (Nat.le_refl _) fun i x hx => .inl ⟨x, hx, rfl⟩
      · obtain ⟨q1, q2⟩ := quiet (.set g again) .ok (by simp) (by simp)
        obtain ⟨l1, l2⟩ := start_loops { cleanup k s with sig := g }
        have hlen : (cleanup k s).items.length = s.items.length := (cleanup_same k s).2.2.2.2
        refine h.same _ q1 q2 (by rw [← hlen]; exact l1) fun i x hx => ?_
        rcases l2 i x hx with ⟨y, h1, h2⟩ | ⟨h1, h2⟩
        · obtain ⟨z, h3, h4⟩ := cleanup_loops k s i y h1
          exact .inl ⟨z, h3, h4.trans h2⟩
        · exact .inr ⟨by rw [← hlen]; exact h1, h2⟩
  | close =>
    obtain ⟨q1, q2⟩ := quiet .close (close k s).1 (by simp) (by
      intro i d key
      unfold close
      split
      · simp
      · dsimp only
        split <;> simp)
    exact h.same _ q1 q2 (Nat.le_of_eq (close_loops k s).1.symm) fun i x hx => .inl ((close_loops k s).2 i x hx)
  | fail i =>
    unfold step fail
    dsimp only
    split
    · obtain ⟨q1, q2⟩ := quiet (.fail i) .invalid (by simp) (by simp)
      exact h.same _ q1 q2 (Nat.le_refl _) fun i x hx => .inl ⟨x, hx, rfl⟩
    · split
      · obtain ⟨q1, q2⟩ := quiet (.fail i) .ok (by simp) (by simp)
        cases k with
        | audio =>
          dsimp only
          exact h.same _ q1 q2 (Nat.le_of_eq (by simp [onItem])) fun j x hx => .inl (item_loops (s := s) (i := i) hx fun _ => rfl)
        | video =>
          obtain ⟨l1, l2⟩ := close_loops .video (onItem s i fun x => { x with decoder := false })
          refine h.same _ q1 q2 (Nat.le_of_eq (by rw [l1]; simp [onItem])) fun j x hx => .inl ?_
          obtain ⟨y, h1, h2⟩ := l2 j x hx
          obtain ⟨z, h3, h4⟩ := item_loops h1 fun _ => rfl
          exact ⟨z, h3, h4.trans h2⟩
      · obtain ⟨q1, q2⟩ := quiet (.fail i) .invalid (by simp) (by simp)
        exact h.same _ q1 q2 (Nat.le_refl _) fun i x hx => .inl ⟨x, hx, rfl⟩
  | settle i n =>
    unfold step settle
    dsimp only
    have inv : Feeds k (tr ++ [(.settle i n, .invalid)]) s :=
      h.same _ (fun j => by rw [bad]) (fun _ => rfl) (Nat.le_refl _) fun i x hx => .inl ⟨x, hx, rfl⟩
    split
    · next x hx =>
      split
      · next hl =>
        refine h.loop _ i x hx _ (fun j hj => ?_) (fun _ _ => rfl) fun hw => ?_
        · cases n <;> first | rfl | simp [arrived, Ne.symm hj]
        · rw [hl] at hw
          have hw : fed tr i = _ := hw
          have hfe : fed [(.settle i n, .ok)] i = [] := rfl
          rw [hfe, List.append_nil]
          cases n with
          | frame j d => exact ⟨arrived tr i, by simp [arrived], hw⟩
          | garbage =>
            show fed tr i = _
            rw [hw]
            simp [arrived]
          | done =>
            show fed tr i = _
            rw [hw]
            simp [arrived]
          | rejected =>
            show fed tr i = _
            rw [hw]
            simp [arrived]
      · exact inv
    · exact inv
  | go i =>
    have key : ∀ o x, (∀ j d key, o ≠ .fed j d key) → s.items[i]? = some x →
        Feeds k (tr ++ [(.go i, o)]) (onItem s i (finish k)) := by
      intro o x ho hx
      obtain ⟨q1, q2⟩ := quiet (.go i) o (by simp) ho
      refine h.loop _ i x hx _ (fun j _ => q1 j) (fun j _ => q2 j) fun hw => ?_
      rw [q1, q2, List.append_nil, List.append_nil]
      have : (finish k x).loop = .over := by cases k <;> rfl
      rw [this]
      exact where_over hw
    have herr : ∀ j d key, error k i ≠ .fed j d key := by
      intro j d key
      cases k <;> simp [error]
    unfold step go
    dsimp only
    split
    · obtain ⟨q1, q2⟩ := quiet (.go i) .invalid (by simp) (by simp)
      exact h.same _ q1 q2 (Nat.le_refl _) fun i x hx => .inl ⟨x, hx, rfl⟩
    · next x hx =>
      split
      · next j d hl =>
        split
        · refine h.loop _ i x hx _ (fun _ _ => rfl) (fun m hm => by simp [fed, Ne.symm hm]) fun hw => ?_
          rw [hl] at hw
          obtain ⟨a', h1, h2⟩ := hw
          show _ = _
          have e : arrived [(.go i, .fed i d (isKey k j))] i = [] := rfl
          rw [e, h1, h2]
          cases k <;> simp [fed, chunk, isKey, Bool.beq_eq_decide_eq]
        · exact key _ x herr hx
      · exact key _ x (by simp) hx
      · exact key _ x herr hx
      · obtain ⟨q1, q2⟩ := quiet (.go i) .invalid (by simp) (by simp)
        exact h.same _ q1 q2 (Nat.le_refl _) fun i x hx => .inl ⟨x, hx, rfl⟩

theorem feeds_reach {k : Kind} {tr : Trace} {s : State} (h : (machine k).Reach tr s) : Feeds k tr s :=
  Machine.Reach.induct (M := machine k) (P := fun tr s => Feeds k tr s)
    ⟨fun _ _ => ⟨rfl, rfl⟩, fun _ _ h => (by simp [init] at h)⟩ (fun _ _ op _ ih => step_feeds ih op) h

/-- A decoder is given the frames of its own subscription, in order, from the first on without gaps; for video, the first
of a group is passed as a key frame and no other, for audio all are. -/
theorem c115_order {k : Kind} {tr : Trace} {s : State} (h : (machine k).Reach tr s) (i : Nat) :
    fed tr i <+: (arrived tr i).map (chunk k) := by
  have f := feeds_reach h
  cases hx : s.items[i]? with
  | none =>
    rw [List.getElem?_eq_none_iff] at hx
    rw [(f.1 i hx).2]
    exact List.nil_prefix
  | some x => exact where_over (f.2 i x hx)

/-- And when its loop waits, it was given all of them. -/
theorem c115_all {k : Kind} {tr : Trace} {s : State} (h : (machine k).Reach tr s) (i : Nat) (x : Item)
    (hx : s.items[i]? = some x) (hl : x.loop = .waiting) : fed tr i = (arrived tr i).map (chunk k) := by
  have := (feeds_reach h).2 i x hx
  rw [hl] at this
  exact this

/-! ## How downloads end -/

theorem modify_mem {l : List Item} {i : Nat} {f : Item → Item} {y : Item} (h : y ∈ l.modify i f) :
    y ∈ l ∨ ∃ x, l[i]? = some x ∧ y = f x := by
  obtain ⟨j, hj⟩ := List.mem_iff_getElem?.1 h
  rw [List.getElem?_modify] at hj
  cases hx : l[j]? with
  | none => rw [hx] at hj; cases hj
  | some x =>
    rw [hx] at hj
    split at hj
    · next he =>
      cases hj
      exact .inr ⟨x, he ▸ hx, rfl⟩
    · cases hj
      exact .inl (List.mem_of_getElem? hx)

/-- What holds for every download, one by one. -/
structure Each (k : Kind) (P : Item → Prop) : Prop where
  new : ∀ t b, P ⟨t, b, true, true, .waiting⟩
  clean : k = .audio → ∀ x, P x → P { x with sub := false, decoder := false }
  settle : ∀ x n, P x → x.loop = .waiting → P { x with loop := .ready n }
  fed : ∀ x j d, P x → x.loop = .ready (.frame j d) → P { x with loop := .waiting }
  finish : ∀ x n, P x → x.loop = .ready n → P (finish k x)
  fail : ∀ x, P x → P { x with decoder := false }

theorem Each.item {P : Item → Prop} {s : State} (h : ∀ x ∈ s.items, P x) (i : Nat) (f : Item → Item)
    (hf : ∀ x, s.items[i]? = some x → P x → P (f x)) : ∀ x ∈ (onItem s i f).items, P x := by
  intro y hy
  rcases modify_mem hy with hy | ⟨x, hx, rfl⟩
  · exact h y hy
  · exact hf x hx (h x (List.mem_of_getElem? hx))

theorem Each.start {k : Kind} {P : Item → Prop} (e : Each k P) {s : State} (h : ∀ x ∈ s.items, P x) :
    ∀ x ∈ (start s).items, P x := by
  unfold Js.Download.start
  split
  · intro x hx
    rcases List.mem_append.1 hx with hx | hx
    · exact h x hx
    · rw [List.mem_singleton.1 hx]
      exact e.new _ _
  · exact h

theorem Each.cleanup {k : Kind} {P : Item → Prop} (e : Each k P) {s : State} (h : ∀ x ∈ s.items, P x) :
    ∀ x ∈ (cleanup k s).items, P x := by
  unfold Js.Download.cleanup
  split
  · split
    · exact h
    · exact Each.item h _ _ fun x _ hp => e.clean rfl x hp
  · exact h

theorem Each.close {k : Kind} {P : Item → Prop} (e : Each k P) {s : State} (h : ∀ x ∈ s.items, P x) :
    ∀ x ∈ (close k s).2.items, P x := by
  unfold Js.Download.close
  split
  · exact h
  · exact e.cleanup h

theorem Each.step {k : Kind} {P : Item → Prop} (e : Each k P) {s : State} (h : ∀ x ∈ s.items, P x) (op : Op) :
    ∀ x ∈ (step k s op).2.items, P x := by
  cases op with
  | set g again =>
    unfold Js.Download.step Js.Download.set
    dsimp only
    split
    · exact h
    · split
      · split
        · exact e.start h
        · exact h
      · exact e.start (s := { Js.Download.cleanup k s with sig := g }) (e.cleanup h)
  | close => exact e.close h
  | settle i n =>
    unfold Js.Download.step Js.Download.settle
    dsimp only
    split
    · next x hx =>
      split
      · next hl =>
        refine Each.item h i _ fun y hy hp => e.settle y n hp ?_
        rw [hx] at hy
        cases hy
        exact hl
      · exact h
    · exact h
  | go i =>
    unfold Js.Download.step go
    dsimp only
    split
    · exact h
    · next x hx =>
      have hfin : ∀ n, x.loop = .ready n → ∀ y ∈ (onItem s i (Js.Download.finish k)).items, P y := fun n hl =>
        Each.item h i _ fun y hy hp => by
          rw [hx] at hy
          cases hy
          exact e.finish _ n hp hl
      split
      · next j d hl =>
        split
        · refine Each.item h i _ fun y hy hp => ?_
          rw [hx] at hy
          cases hy
          exact e.fed _ j d hp hl
        · exact hfin _ hl
      · next hl => exact hfin _ hl
      · next hl => exact hfin _ hl
      · exact h
  | fail i =>
    unfold Js.Download.step Js.Download.fail
    dsimp only
    split
    · exact h
    · split
      · have h' := Each.item h i (fun x => { x with decoder := false }) fun x _ hp => e.fail x hp
        cases k with
        | audio => exact h'
        | video => exact e.close h'
      · exact h

theorem Each.reach {k : Kind} {P : Item → Prop} (e : Each k P) {tr : Trace} {s : State} (h : (machine k).Reach tr s) :
    ∀ x ∈ s.items, P x :=
  Machine.Reach.induct (M := machine k) (P := fun _ s => ∀ x ∈ s.items, P x) (fun _ h => (by cases h))
    (fun _ _ op _ ih => e.step ih op) h

/-- Video: a subscription is closed exactly when its loop has ended. -/
theorem c115_video_sub {tr : Trace} {s : State} (h : (machine .video).Reach tr s) (x : Item) (hx : x ∈ s.items) :
    x.sub = false ↔ x.loop = .over :=
  Each.reach (P := fun x => x.sub = false ↔ x.loop = .over)
    ⟨fun _ _ => by simp, fun h => (by cases h), fun x n h hl => by simp_all, fun x j d h hl => by simp_all,
      fun x n _ _ => by simp [finish], fun x h => h⟩ h x hx

/-- Audio: a subscription is open as long as its decoder. -/
theorem c115_audio_sub {tr : Trace} {s : State} (h : (machine .audio).Reach tr s) (x : Item) (hx : x ∈ s.items)
    (hd : x.decoder = true) : x.sub = true :=
  Each.reach (k := .audio) (P := fun x => x.decoder = true → x.sub = true)
    ⟨fun _ _ _ => rfl, fun _ _ _ h => (by cases h), fun x n h _ => h, fun x j d h _ => h, fun x n h _ => h,
      fun x _ h => (by cases h)⟩ h x hx hd

/-- The loop of a download has ended. -/
def Over (s : State) (i : Nat) : Prop := ∃ x, s.items[i]? = some x ∧ x.loop = .over

/-- What is put out when the loop of a download ends. -/
def Ends (i : Nat) (o : Out) : Prop := o = .ended i ∨ o = .warned i ∨ o = .unhandled i

theorem over_item {s : State} {i : Nat} (h : Over s i) (j : Nat) (f : Item → Item)
    (hf : ∀ x, s.items[j]? = some x → x.loop = .over → (f x).loop = .over) : Over (onItem s j f) i := by
  obtain ⟨x, hx, hl⟩ := h
  unfold Over
  rw [item_get, hx]
  split
  · next e => exact ⟨f x, rfl, hf x (e ▸ hx) hl⟩
  · exact ⟨x, rfl, hl⟩

theorem over_start {s : State} {i : Nat} (h : Over s i) : Over (start s) i := by
  obtain ⟨x, hx, hl⟩ := h
  refine ⟨x, ?_, hl⟩
  unfold start
  split
  · dsimp only
    rw [List.getElem?_append_left (List.getElem?_eq_some_iff.1 hx).1]
    exact hx
  · exact hx

theorem over_cleanup {k : Kind} {s : State} {i : Nat} (h : Over s i) : Over (cleanup k s) i := by
  unfold cleanup
  split
  · split
    · exact h
    · exact over_item h _ _ fun _ _ hl => hl
  · exact h

theorem over_close {k : Kind} {s : State} {i : Nat} (h : Over s i) : Over (close k s).2 i := by
  unfold close
  split
  · exact h
  · exact over_cleanup (k := k) h

theorem finish_over (k : Kind) (x : Item) : (finish k x).loop = .over := by cases k <;> rfl

theorem over_step {k : Kind} {s : State} {i : Nat} (h : Over s i) (op : Op) : Over (step k s op).2 i := by
  cases op with
  | set g again =>
    unfold step Js.Download.set
    dsimp only
    split
    · exact h
    · split
      · split
        · exact over_start (s := { s with sig := g }) h
        · exact h
      · exact over_start (s := { cleanup k s with sig := g }) (over_cleanup (k := k) h)
  | close => exact over_close h
  | settle j n =>
    unfold step settle
    dsimp only
    split
    · next x hx =>
      split
      · next hl =>
        refine over_item h j _ fun y hy ho => ?_
        rw [hx] at hy
        cases hy
        rw [hl] at ho
        cases ho
      · exact h
    · exact h
  | go j =>
    unfold step go
    dsimp only
    split
    · exact h
    · next x hx =>
      split
      · next hl =>
        split
        · refine over_item h j _ fun y hy ho => ?_
          rw [hx] at hy
          cases hy
          rw [hl] at ho
          cases ho
        · exact over_item h j _ fun y _ _ => finish_over k y
      · exact over_item h j _ fun y _ _ => finish_over k y
      · exact over_item h j _ fun y _ _ => finish_over k y
      · exact h
  | fail j =>
    unfold step fail
    dsimp only
    split
    · exact h
    · split
      · have h' : Over (onItem s j fun x => { x with decoder := false }) i := over_item h j _ fun _ _ hl => hl
        cases k with
        | audio => exact h'
        | video => exact over_close h'
      · exact h

theorem ends_step {k : Kind} {s : State} {i : Nat} (op : Op) (h : Ends i (step k s op).1) : Over (step k s op).2 i := by
  have hf : ∀ x, s.items[i]? = some x → Over (onItem s i (finish k)) i := fun x hx =>
    ⟨finish k x, by rw [item_get, if_pos rfl, hx]; rfl, finish_over k x⟩
  have no : ¬ Ends i .ok ∧ ¬ Ends i .threw ∧ ¬ Ends i .invalid := by
    refine ⟨?_, ?_, ?_⟩ <;> rintro (h | h | h) <;> cases h
  have he : ∀ j, Ends i (error k j) → j = i := by
    intro j h
    cases k <;> (rcases h with h | h | h <;> cases h) <;> rfl
  have hcl : ∀ s : State, ¬ Ends i (close k s).1 := by
    intro s
    unfold close
    split
    · exact no.1
    · dsimp only
      split
      · exact no.2.1
      · exact no.1
  cases op with
  | set g again =>
    exfalso
    unfold step Js.Download.set at h
    dsimp only at h
    split at h
    · exact no.1 h
    · split at h
      · split at h <;> exact no.2.1 h
      · exact no.1 h
  | close => exact absurd h (hcl s)
  | settle j n =>
    exfalso
    unfold step settle at h
    dsimp only at h
    split at h
    · split at h
      · exact no.1 h
      · exact no.2.2 h
    · exact no.2.2 h
  | fail j =>
    exfalso
    unfold step fail at h
    dsimp only at h
    split at h
    · exact no.2.2 h
    · split at h
      · cases k <;> exact no.1 h
      · exact no.2.2 h
  | go j =>
    unfold step go at h ⊢
    dsimp only at h ⊢
    cases hx : s.items[j]? with
    | none =>
      rw [hx] at h
      exact absurd h no.2.2
    | some x =>
      rw [hx] at h
      dsimp only at h ⊢
      cases hl : x.loop with
      | waiting => rw [hl] at h; exact absurd h no.2.2
      | over => rw [hl] at h; exact absurd h no.2.2
      | ready n =>
        rw [hl] at h
        cases n with
        | frame a b =>
          dsimp only at h ⊢
          by_cases hd : x.decoder = true
          · rw [if_pos hd] at h
            rcases h with h | h | h <;> cases h
          · rw [if_neg hd] at h ⊢
            cases he j h
            exact hf x hx
        | done =>
          have : j = i := by rcases h with h | h | h <;> cases h; rfl
          cases this
          exact hf x hx
        | garbage => cases he j h; exact hf x hx
        | rejected => cases he j h; exact hf x hx

theorem ends_reach {k : Kind} {tr : Trace} {s : State} (h : (machine k).Reach tr s) :
    ∀ i, (∃ e ∈ tr, Ends i e.2) → Over s i :=
  Machine.Reach.induct (M := machine k) (P := fun tr s => ∀ i, (∃ e ∈ tr, Ends i e.2) → Over s i)
    (fun _ ⟨_, h, _⟩ => (by cases h))
    (fun tr s op _ ih i ⟨e, h, he⟩ => by
      rcases List.mem_append.1 h with h | h
      · exact over_step (ih i ⟨e, h, he⟩) op
      · rw [List.mem_singleton.1 h] at he
        exact ends_step op he) h

/-- Once its loop has ended, a decoder is given nothing any more. -/
theorem c115_over {k : Kind} {tr : Trace} {s : State} (h : (machine k).Reach tr s) (i : Nat)
    (he : ∃ e ∈ tr, e.2 = .ended i ∨ e.2 = .warned i ∨ e.2 = .unhandled i) (d : Nat) (key : Bool) (op : Op) :
    (step k s op).1 ≠ .fed i d key := by
  obtain ⟨x, hx, hl⟩ := ends_reach h i he
  intro hf
  cases op with
  | set g again =>
    unfold step Js.Download.set at hf
    dsimp only at hf
    split at hf
    · cases hf
    · split at hf
      · split at hf <;> cases hf
      · cases hf
  | close =>
    unfold step close at hf
    dsimp only at hf
    split at hf
    · cases hf
    · dsimp only at hf
      split at hf <;> cases hf
  | settle j n =>
    unfold step settle at hf
    dsimp only at hf
    split at hf
    · split at hf <;> cases hf
    · cases hf
  | fail j =>
    unfold step fail at hf
    dsimp only at hf
    split at hf
    · cases hf
    · split at hf
      · cases k <;> cases hf
      · cases hf
  | go j =>
    unfold step go at hf
    dsimp only at hf
    split at hf
    · cases hf
    · next y hy =>
      split at hf
      · next a b hr =>
        split at hf
        · cases hf
          rw [hx] at hy
          cases hy
          rw [hl] at hr
          cases hr
        · cases k <;> cases hf
      · cases hf
      · cases k <;> cases hf
      · cases hf

theorem start_keeps (s : State) (i : Nat) (x : Item) (hx : s.items[i]? = some x) : (start s).items[i]? = some x := by
  unfold start
  split
  · dsimp only
    rw [List.getElem?_append_left (List.getElem?_eq_some_iff.1 hx).1]
    exact hx
  · exact hx

/-- A closed player starts nothing. -/
theorem closed_step {k : Kind} {s : State} (hc : s.closed = true) (op : Op) :
    (step k s op).2.closed = true ∧ (step k s op).2.items.length = s.items.length := by
  cases op with
  | set g again =>
    unfold step Js.Download.set
    dsimp only
    rw [if_pos (.inr (.inl hc))]
    exact ⟨hc, rfl⟩
  | close =>
    unfold step close
    dsimp only
    rw [if_pos hc]
    exact ⟨hc, rfl⟩
  | settle i n =>
    unfold step settle
    dsimp only
    split
    · split
      · exact ⟨hc, by simp [onItem]⟩
      · exact ⟨hc, rfl⟩
    · exact ⟨hc, rfl⟩
  | go i =>
    unfold step go
    dsimp only
    split
    · exact ⟨hc, rfl⟩
    · split
      · split <;> exact ⟨hc, by simp [onItem]⟩
      · exact ⟨hc, by simp [onItem]⟩
      · exact ⟨hc, by simp [onItem]⟩
      · exact ⟨hc, rfl⟩
  | fail i =>
    unfold step fail
    dsimp only
    split
    · exact ⟨hc, rfl⟩
    · split
      · have hc' : (onItem s i fun x => { x with decoder := false }).closed = true := hc
        cases k with
        | audio => exact ⟨hc, by simp [onItem]⟩
        | video =>
          unfold close
          simp only [if_pos hc']
          exact ⟨hc, by simp [onItem]⟩
      · exact ⟨hc, rfl⟩

theorem closed_run (k : Kind) (ops : List Op) : ∀ {s : State}, s.closed = true →
    ((machine k).runFrom s ops).2.items.length = s.items.length := by
  induction ops with
  | nil => exact fun _ => rfl
  | cons op ops ih =>
    intro s hc
    obtain ⟨h1, h2⟩ := closed_step (k := k) hc op
    exact (ih h1).trans h2

/-- After `close`, nothing is downloaded any more. -/
theorem c115_shut {k : Kind} {tr : Trace} {s : State} (h : (machine k).Reach tr s) (hs : Shut k tr) (ops : List Op) :
    ((machine k).runFrom s ops).2.items.length = s.items.length :=
  closed_run k ops ((inv_reach h).shut.2 hs)

/-- A violation: one error of a decoder ends a video player for good, whatever the signals ask for afterwards. -/
theorem c115_video_error {tr : Trace} {s : State} (h : (machine .video).Reach tr s) (i : Nat)
    (hf : (step .video s (.fail i)).1 = .ok) (ops : List Op) :
    ((machine .video).runFrom (step .video s (.fail i)).2 ops).2.items.length = s.items.length := by
  have hr := Machine.Reach.step (M := machine .video) (.fail i) h
  have e : (machine .video).step s (.fail i) = (.ok, (step .video s (.fail i)).2) := Prod.ext hf rfl
  rw [e] at hr
  rw [c115_shut hr (.inr ⟨rfl, i, by simp⟩)]
  show (step .video s (.fail i)).2.items.length = _
  unfold step fail
  dsimp only
  split
  · rfl
  · split
    · rw [(close_loops _ _).1]
      simp [onItem]
    · rfl

/-! ## Violations: audio -/

/-- A subscription whose decoder has failed stays open. -/
theorem stuck_step {s : State} {i : Nat} (h : ∃ x, s.items[i]? = some x ∧ x.sub = true ∧ x.decoder = false) (op : Op) :
    ∃ x, (step .audio s op).2.items[i]? = some x ∧ x.sub = true ∧ x.decoder = false := by
  obtain ⟨x, hx, hs, hd⟩ := h
  have item : ∀ j f, (∀ y, (f y).sub = y.sub) → (∀ y : Item, y.decoder = false → (f y).decoder = false) →
      ∃ x, (onItem s j f).items[i]? = some x ∧ x.sub = true ∧ x.decoder = false := by
    intro j f h1 h2
    rw [item_get, hx]
    split
    · exact ⟨f x, rfl, by rw [h1, hs], h2 x hd⟩
    · exact ⟨x, rfl, hs, hd⟩
  have clean : (cleanup .audio s).items[i]? = some x := by
    unfold cleanup
    split
    · next j hj _ hc =>
      split
      · exact hx
      · next ht =>
        rw [item_get, if_neg]
        · exact hx
        · rintro rfl
          apply ht
          unfold throws
          rw [hc]
          dsimp only
          rw [hx]
          simp [hd]
    · exact hx
  cases op with
  | set g again =>
    unfold step Js.Download.set
    dsimp only
    split
    · exact ⟨x, hx, hs, hd⟩
    · split
      · split
        · exact ⟨x, start_keeps _ i x hx, hs, hd⟩
        · exact ⟨x, hx, hs, hd⟩
      · exact ⟨x, start_keeps { cleanup .audio s with sig := g } i x clean, hs, hd⟩
  | close =>
    unfold step close
    dsimp only
    split
    · exact ⟨x, hx, hs, hd⟩
    · exact ⟨x, clean, hs, hd⟩
  | settle j n =>
    unfold step settle
    dsimp only
    split
    · split
      · exact item j _ (fun _ => rfl) fun _ h => h
      · exact ⟨x, hx, hs, hd⟩
    · exact ⟨x, hx, hs, hd⟩
  | go j =>
    unfold step go
    dsimp only
    split
    · exact ⟨x, hx, hs, hd⟩
    · split
      · split <;> exact item j _ (fun _ => rfl) fun _ h => h
      · exact item j _ (fun _ => rfl) fun _ h => h
      · exact item j _ (fun _ => rfl) fun _ h => h
      · exact ⟨x, hx, hs, hd⟩
  | fail j =>
    unfold step fail
    dsimp only
    split
    · exact ⟨x, hx, hs, hd⟩
    · split
      · exact item j _ (fun _ => rfl) fun _ _ => rfl
      · exact ⟨x, hx, hs, hd⟩

/-- The state after a failure. -/
theorem fail_state {tr : Trace} {s : State} (h : (machine .audio).Reach tr s) {i : Nat}
    (hf : (step .audio s (.fail i)).1 = .ok) : ∃ x, s.items[i]? = some x ∧ x.decoder = true ∧ x.sub = true ∧
      (step .audio s (.fail i)).2 = onItem s i fun x => { x with decoder := false } := by
  unfold step fail at hf ⊢
  dsimp only at hf ⊢
  split at hf
  · cases hf
  · next x hx =>
    split at hf
    · next hd => exact ⟨x, hx, hd, c115_audio_sub h x (List.mem_of_getElem? hx) hd, by simp only [hd, if_true]⟩
    · cases hf

/-- A violation: when a decoder of an audio player fails, its subscription is never closed, whatever happens. -/
theorem c115_leak {tr : Trace} {s : State} (h : (machine .audio).Reach tr s) (i : Nat)
    (hf : (step .audio s (.fail i)).1 = .ok) (ops : List Op) :
    ∃ x, ((machine .audio).runFrom (step .audio s (.fail i)).2 ops).2.items[i]? = some x ∧ x.sub = true := by
  obtain ⟨x, hx, hd, hs, e⟩ := fail_state h hf
  have key : ∀ (ops : List Op) (s : State), (∃ x, s.items[i]? = some x ∧ x.sub = true ∧ x.decoder = false) →
      ∃ x, ((machine .audio).runFrom s ops).2.items[i]? = some x ∧ x.sub = true ∧ x.decoder = false := by
    intro ops
    induction ops with
    | nil => exact fun _ h => h
    | cons op ops ih => exact fun s h => ih _ (stuck_step h op)
  obtain ⟨y, h1, h2, -⟩ := key ops (step .audio s (.fail i)).2 (by
    rw [e, item_get, if_pos rfl, hx]
    exact ⟨_, rfl, hs, rfl⟩)
  exact ⟨y, h1, h2⟩

/-- A violation: and the next change of the signals that matters throws, and so does `close`. -/
theorem c115_throws {tr : Trace} {s : State} (h : (machine .audio).Reach tr s) (i : Nat)
    (hf : (step .audio s (.fail i)).1 = .ok) :
    (∀ g again, ¬ Same g (sig tr) → (step .audio (step .audio s (.fail i)).2 (.set g again)).1 = .threw) ∧
    (step .audio (step .audio s (.fail i)).2 .close).1 = .threw := by
  obtain ⟨x, hx, hd, hs, e⟩ := fail_state h hf
  have v := inv_reach h
  obtain ⟨hcur, hb⟩ := v.own rfl i x hx hd
  obtain ⟨-, hc, hw⟩ := (v.own rfl).last v.base hx hd
  have ht : throws .audio (onItem s i fun x => { x with decoder := false }) = true := by
    unfold throws
    have : (onItem s i fun x => { x with decoder := false }).current = some i := hcur
    rw [this]
    dsimp only
    rw [item_get, if_pos rfl, hx]
    rfl
  rw [e]
  constructor
  · intro g again hg
    unfold step Js.Download.set
    dsimp only
    rw [if_neg, if_pos ht]
    · split <;> rfl
    · rintro (h | h | h)
      · exact hg (same_of_want (h.trans (by rw [← v.sig]; rfl)))
      · exact absurd ((hc : _ = false).symm.trans h) Bool.false_ne_true
      · exact absurd ((hb : _ = false).symm.trans h) Bool.false_ne_true
  · unfold step close
    dsimp only
    rw [if_neg, if_pos ht]
    intro h
    exact absurd ((hc : _ = false).symm.trans h) Bool.false_ne_true

/-- A violation: if a frame has arrived and then the signals change before the loop continues, the loop ends by an error
that nobody handles. -/
theorem c115_late {tr : Trace} {s : State} (h : (machine .audio).Reach tr s) (i : Nat) (x : Item) (hx : s.items[i]? = some x)
    (hd : x.decoder = true) (j d : Nat) (hl : x.loop = .ready (.frame j d)) (g : Sig) (hg : ¬ Same g (sig tr)) (again : Bool) :
    ((machine .audio).runFrom s [.set g again, .go i]).1.map (·.2) = [.ok, .unhandled i] := by
  have v := inv_reach h
  obtain ⟨hcur, hb⟩ := v.own rfl i x hx hd
  obtain ⟨-, hc, hw⟩ := (v.own rfl).last v.base hx hd
  have ht : throws .audio s = false := by
    unfold throws
    rw [hcur]
    dsimp only
    rw [hx]
    simp [hd]
  have hcl : cleanup .audio s = onItem s i fun x => { x with sub := false, decoder := false } := by
    unfold cleanup
    rw [hcur]
    dsimp only
    rw [ht]
    simp
  have e : step .audio s (.set g again) = (.ok, start { cleanup .audio s with sig := g }) := by
    unfold step Js.Download.set
    dsimp only
    rw [if_neg, if_neg]
    · rw [ht]; simp
    · rintro (h | h | h)
      · exact hg (same_of_want (h.trans (by rw [v.sig])))
      · rw [hc] at h; cases h
      · rw [hb] at h; cases h
  have hy : (start { cleanup .audio s with sig := g }).items[i]? = some { x with sub := false, decoder := false } := by
    apply start_keeps
    show (cleanup .audio s).items[i]? = _
    rw [hcl, item_get, if_pos rfl, hx]
    rfl
  have e2 : (step .audio (start { cleanup .audio s with sig := g }) (.go i)).1 = .unhandled i := by
    unfold step go
    dsimp only
    rw [hy]
    dsimp only
    rw [hl]
    rfl
  simp only [Machine.runFrom, e, List.map_cons, List.map_nil, e2]

/-! ## Violations: video -/

/-- Does an operation touch a download by itself? -/
def Touches (i : Nat) : Op → Prop
  | .settle j _ => j = i
  | .go j => j = i
  | .fail j => j = i
  | _ => False

theorem video_step {s : State} {i : Nat} {x : Item} (hx : s.items[i]? = some x) (op : Op) (ho : ¬ Touches i op) :
    (step .video s op).2.items[i]? = some x := by
  have hcl : ∀ s : State, cleanup .video s = s := fun s => by
    unfold cleanup
    split
    · next h _ => cases h
    · rfl
  have hclose : ∀ s : State, (close .video s).2.items = s.items := by
    intro s
    unfold close
    split
    · rfl
    · rw [hcl]
  have item : ∀ j f, j ≠ i → (onItem s j f).items[i]? = some x := by
    intro j f hj
    rw [item_get, if_neg hj]
    exact hx
  cases op with
  | set g again =>
    unfold step Js.Download.set
    dsimp only
    split
    · exact hx
    · split
      · split
        · exact start_keeps _ i x hx
        · exact hx
      · rw [hcl]
        exact start_keeps { s with sig := g } i x hx
  | close =>
    show (close .video s).2.items[i]? = _
    rw [hclose]
    exact hx
  | settle j n =>
    have hj : j ≠ i := ho
    unfold step settle
    dsimp only
    split
    · split
      · exact item j _ hj
      · exact hx
    · exact hx
  | go j =>
    have hj : j ≠ i := ho
    unfold step go
    dsimp only
    split
    · exact hx
    · split
      · split <;> exact item j _ hj
      · exact item j _ hj
      · exact item j _ hj
      · exact hx
  | fail j =>
    have hj : j ≠ i := ho
    unfold step fail
    dsimp only
    split
    · exact hx
    · split
      · dsimp only
        rw [hclose]
        exact item j _ hj
      · exact hx

/-- A violation: a download of video that waits for a frame goes on whatever is set, closed or done elsewhere: when the
frame comes, its decoder is given it. -/
theorem c115_goes_on {s : State} (i : Nat) (x : Item) (hx : s.items[i]? = some x) (hd : x.decoder = true)
    (hl : x.loop = .waiting) (ops : List Op) (ho : ∀ op ∈ ops, ¬ Touches i op) (j d : Nat) :
    ((machine .video).runFrom ((machine .video).runFrom s ops).2 [.settle i (.frame j d), .go i]).1.map (·.2) =
      [.ok, .fed i d (decide (j = 0))] := by
  have key : ∀ (ops : List Op) (s : State), s.items[i]? = some x → (∀ op ∈ ops, ¬ Touches i op) →
      ((machine .video).runFrom s ops).2.items[i]? = some x := by
    intro ops
    induction ops with
    | nil => exact fun _ h _ => h
    | cons op ops ih =>
      intro s h ho
      exact ih _ (video_step h op (ho op (by simp))) fun o h => ho o (List.mem_cons_of_mem _ h)
  have hy := key ops s hx ho
  generalize ((machine .video).runFrom s ops).2 = t at hy
  have e1 : step .video t (.settle i (.frame j d)) = (.ok, onItem t i fun x => { x with loop := .ready (.frame j d) }) := by
    unfold step settle
    dsimp only
    rw [hy]
    simp only [hl, if_true]
  have e2 : (step .video (onItem t i fun x => { x with loop := .ready (.frame j d) }) (.go i)).1 =
      .fed i d (decide (j = 0)) := by
    unfold step go
    dsimp only
    rw [item_get, if_pos rfl, hy]
    simp [hd, isKey, Bool.beq_eq_decide_eq]
  simp only [Machine.runFrom, e1, List.map_cons, List.map_nil, e2]

/-- Switching a video player on and off. -/
def onOff : Nat → List Op
  | 0 => []
  | n + 1 => .set ⟨true, some 0, some 0⟩ false :: .set ⟨false, some 0, some 0⟩ false :: onOff n

/-- A violation: each time leaves a subscription and a decoder open. -/
theorem c115_many (n : Nat) : ∃ (tr : Trace) (s : State), (machine .video).Reach tr s ∧ (∀ t b, ¬ Asked (sig tr) t b) ∧
    (s.items.filter fun x => x.sub && x.decoder).length = n := by
  have key : ∀ (n : Nat) (s : State), s.closed = false → s.broken = false → want s.sig = none →
      want ((machine .video).runFrom s (onOff n)).2.sig = none ∧
      (((machine .video).runFrom s (onOff n)).2.items.filter fun x => x.sub && x.decoder).length =
        (s.items.filter fun x => x.sub && x.decoder).length + n := by
    intro n
    induction n with
    | zero => exact fun s _ _ h => ⟨h, rfl⟩
    | succ n ih =>
      intro s h1 h2 h3
      have e1 : step .video s (.set ⟨true, some 0, some 0⟩ false) =
          (.ok, { s with sig := ⟨true, some 0, some 0⟩, items := s.items ++ [⟨0, 0, true, true, .waiting⟩], current := some s.items.length }) := by
        have hne : ¬ (want ⟨true, some 0, some 0⟩ = want s.sig) := by rw [h3]; simp [want]
        simp only [step, Js.Download.set, h1, h2, hne]
        simp [throws, cleanup, start, want, h1, h2]
      have e2 : step .video { s with sig := ⟨true, some 0, some 0⟩, items := s.items ++ [⟨0, 0, true, true, .waiting⟩], current := some s.items.length }
          (.set ⟨false, some 0, some 0⟩ false) =
          (.ok, { s with sig := ⟨false, some 0, some 0⟩, items := s.items ++ [⟨0, 0, true, true, .waiting⟩], current := none }) := by
        simp [step, Js.Download.set, h1, h2, throws, cleanup, start, want]
      obtain ⟨i1, i2⟩ := ih { s with sig := ⟨false, some 0, some 0⟩, items := s.items ++ [⟨0, 0, true, true, .waiting⟩], current := none }
        h1 h2 rfl
      simp only [onOff, Machine.runFrom, e1, e2]
      refine ⟨i1, i2.trans ?_⟩
      rw [List.filter_append, List.length_append]
      simp
      omega
  have hr := (machine .video).reach_run (onOff n)
  obtain ⟨k1, k2⟩ := key n init rfl rfl rfl
  refine ⟨_, _, hr, ?_, ?_⟩
  · intro t b h
    rw [← want_iff, ← (inv_reach hr).sig] at h
    exact absurd (k1.symm.trans h) (by simp)
  · show (((machine .video).runFrom init (onOff n)).2.items.filter _).length = n
    rw [k2]
    simp [init]

/-! ## Examples -/

def g₀ : Sig := ⟨true, some 7, some 1⟩
def g₁ : Sig := ⟨true, some 8, some 1⟩
def off : Sig := ⟨false, some 8, some 1⟩

/-- Two frames, another track, and off. -/
def ops₁ : List Op :=
  [.set g₀ false, .settle 0 (.frame 0 5), .go 0, .settle 0 (.frame 1 6), .go 0, .set g₁ false, .settle 1 (.frame 0 9), .go 1,
   .settle 0 .done, .go 0, .set off false]

example : ((machine .audio).run ops₁).1.map (·.2) =
    [.ok, .ok, .fed 0 5 true, .ok, .fed 0 6 true, .ok, .ok, .fed 1 9 true, .ok, .ended 0, .ok] := by decide +kernel

example : ((machine .audio).run ops₁).2.items = [⟨7, 1, false, false, .over⟩, ⟨8, 1, false, false, .waiting⟩] := by decide +kernel

/-- The same for video. -/
example : ((machine .video).run ops₁).1.map (·.2) =
    [.ok, .ok, .fed 0 5 true, .ok, .fed 0 6 false, .ok, .ok, .fed 1 9 true, .ok, .ended 0, .ok] := by decide +kernel

example : ((machine .video).run ops₁).2.items = [⟨7, 1, false, true, .over⟩, ⟨8, 1, true, true, .waiting⟩] := by decide +kernel

/-- The hypotheses of `c115_started` and `c115_one_partial`. -/
example : Sound ((machine .audio).run (ops₁.take 10)).1 ∧ ¬ Shut .audio ((machine .audio).run (ops₁.take 10)).1 ∧
    Asked (sig ((machine .audio).run (ops₁.take 10)).1) 8 1 := by
  have e : ((machine .audio).run (ops₁.take 10)).1 = [(.set g₀ false, .ok), (.settle 0 (.frame 0 5), .ok), (.go 0, .fed 0 5 true),
    (.settle 0 (.frame 1 6), .ok), (.go 0, .fed 0 6 true), (.set g₁ false, .ok), (.settle 1 (.frame 0 9), .ok), (.go 1, .fed 1 9 true),
    (.settle 0 .done, .ok), (.go 0, .ended 0)] := by decide +kernel
  rw [e]
  refine ⟨fun i => by simp, ?_, rfl, rfl, rfl⟩
  rintro (⟨o, h⟩ | ⟨h, -⟩)
  · simp at h
  · cases h

/-- The hypotheses of `c115_over`. -/
example : (.go 0, .ended 0) ∈ ((machine .video).run ops₁).1 := by decide +kernel

/-- The hypotheses of `c115_audio_fed`. -/
example : (step .audio ((machine .audio).run (ops₁.take 7)).2 (.go 1)).1 = .fed 1 9 true := by decide +kernel

/-- The hypotheses of `c115_leak`, `c115_throws` and `c115_video_error`, and what follows. -/
example : (step .audio ((machine .audio).run (ops₁.take 5)).2 (.fail 0)).1 = .ok ∧
    (step .video ((machine .video).run (ops₁.take 5)).2 (.fail 0)).1 = .ok := by decide +kernel

example : ¬ Same g₁ g₀ := fun h => absurd ((h 8 1).1 ⟨rfl, rfl, rfl⟩).2.1 (by decide +kernel)

example : ((machine .audio).run [.set g₀ false, .fail 0, .set off false, .set g₀ false, .close]).1.map (·.2) =
    [.ok, .ok, .threw, .ok, .threw] ∧
    ((machine .audio).run [.set g₀ false, .fail 0, .set off false, .set g₀ false, .close]).2.items =
      [⟨7, 1, true, false, .waiting⟩] := by decide +kernel

example : ((machine .video).run [.set g₀ false, .fail 0, .set off false, .set g₁ false, .settle 0 (.frame 0 1), .go 0]).1.map (·.2) =
    [.ok, .ok, .ok, .ok, .ok, .warned 0] ∧
    ((machine .video).run [.set g₀ false, .fail 0, .set off false, .set g₁ false, .settle 0 (.frame 0 1), .go 0]).2.items =
      [⟨7, 1, false, false, .over⟩] := by decide +kernel

/-- The hypotheses of `c115_late`. -/
example : ((machine .audio).run (ops₁.take 4)).2.items[0]? = some ⟨7, 1, true, true, .ready (.frame 1 6)⟩ := by decide +kernel

/-- The hypotheses of `c115_goes_on`, with the player closed in between. -/
example : ((machine .video).run (ops₁.take 3)).2.items[0]? = some ⟨7, 1, true, true, .waiting⟩ ∧
    ∀ op ∈ [Op.set off false, .close], ¬ Touches 0 op := by
  refine ⟨by decide +kernel, ?_⟩
  intro op h
  rcases List.mem_cons.1 h with rfl | h
  · exact id
  · rw [List.mem_singleton.1 h]
    exact id

end Verif.Props.JsDownload
