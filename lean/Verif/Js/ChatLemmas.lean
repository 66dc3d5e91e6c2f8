import Verif.Js.Chat
import Verif.Js.CatalogTrackLemmas
import Verif.Js.TextLemmas

/-!
# Invariants of a chat
-/

set_option autoImplicit false

namespace Verif.Js.Chat

open Verif Verif.Js

open Verif.Js.Group (Status)

/-- The frames of an entry: a message, or nothing. -/
def frames : Option JsString → List Bytes
  | none => []
  | some m => [textEncode m]

/-- The track has one group for each of these messages or empty groups. -/
structure Inv (es : List (Option JsString)) (s : State) : Prop where
  reach : Track.machine.Reach s.calls s.track
  live : s.track.status = .live
  next : s.track.next = es.length
  acc : Track.accepted s.calls = List.range es.length
  content : ∀ i : Nat, Track.content s.calls i = ((es[i]?).map frames).getD []
  /-- older groups are closed -/
  ended : ∀ g, g + 1 < es.length → (.closeGroup g, .ok) ∈ s.calls
  group : s.group = if es.length = 0 then none else some (es.length - 1)
  newest : ∀ g, s.group = some g → (∃ fs, Track.find s.track g = some ⟨g, fs, .live⟩) ∨ (.closeGroup g, .ok) ∈ s.calls
  ending : Track.ending s.calls = none

theorem Inv.frame {es : List (Option JsString)} {s s' : State} (i : Inv es s) (h1 : s'.track = s.track)
    (h2 : s'.calls = s.calls) (h3 : s'.group = s.group) : Inv es s' := by
  obtain ⟨n, t, g, e, ts, f, tr, c⟩ := s
  obtain ⟨n', t', g', e', ts', f', tr', c'⟩ := s'
  dsimp only at h1 h2 h3
  subst h1 h2 h3
  exact ⟨i.reach, i.live, i.next, i.acc, i.content, i.ended, i.group, i.newest, i.ending⟩

theorem init_inv (ttl : Option Nat) : Inv [] (init ttl) :=
  ⟨.init, rfl, rfl, rfl, fun _ => rfl, fun _ h => absurd h (by simp), rfl, fun _ h => (by cases h), rfl⟩

theorem Inv.reader {es : List (Option JsString)} {s : State} (i : Inv es s) (op : Track.Op)
    (h : Receive.reads op = true) : Inv es (call s op) := by
  obtain ⟨h1, h2, h3, -⟩ := Receive.reads_keeps h s.track
  obtain ⟨q1, q2⟩ := Receive.reads_silent h (Track.step s.track op).1
  refine ⟨Machine.Reach.step (M := Track.machine) op i.reach, h2.trans i.live, h3.trans i.next, ?_, ?_, ?_, i.group, ?_, ?_⟩
  · unfold call
    rw [Track.accepted_snoc, i.acc, q1]
    simp
  · intro k
    unfold call
    rw [Track.content_snoc, i.content, q2]
    simp
  · intro g hg
    exact List.mem_append_left _ (i.ended g hg)
  · intro g hg
    rcases i.newest g hg with ⟨fs, h⟩ | h
    · refine .inl ⟨fs, ?_⟩
      rw [← h]
      show Track.find (Track.step s.track op).2 g = _
      unfold Track.find
      rw [h1]
    · exact .inr (List.mem_append_left _ h)
  · unfold call
    rw [Track.ending_snoc, i.ending]
    cases op <;> first | exact absurd h Bool.false_ne_true | simp

/-- `this.#group?.close()`. -/
theorem Inv.closing {es : List (Option JsString)} {s : State} (i : Inv es s) :
    Inv es (closeGroup s) ∧ (∀ g < es.length, (.closeGroup g, .ok) ∈ (closeGroup s).calls) := by
  unfold closeGroup
  have hg := i.group
  by_cases hn : es.length = 0
  · rw [if_pos hn] at hg
    rw [hg]
    exact ⟨i, fun g h => by omega⟩
  rw [if_neg hn] at hg
  rw [hg]
  dsimp only
  have cn := Frames.onGroup_same s.track (es.length - 1) fun x => { x with status := .closed }
  have hall : (.closeGroup (es.length - 1), .ok) ∈ (call s (.closeGroup (es.length - 1))).calls := by
    rcases i.newest _ hg with ⟨fs, h⟩ | h
    · obtain ⟨h1, -⟩ := Receive.group_step h rfl (fun x => { x with status := .closed }) fun _ => rfl
      have h1 : (Track.step s.track (.closeGroup (es.length - 1))).1 = .ok := h1
      unfold call
      rw [h1]
      simp
    · exact List.mem_append_left _ h
  refine ⟨⟨Machine.Reach.step (M := Track.machine) _ i.reach, cn.2.trans i.live, cn.1.trans i.next, ?_, ?_, ?_, ?_, ?_, ?_⟩,
    fun g h => ?_⟩
  · unfold call
    rw [Track.accepted_snoc, i.acc]
    simp [Track.taken]
  · intro k
    unfold call
    rw [Track.content_snoc, i.content]
    simp [Track.addition]
  · intro g h
    exact List.mem_append_left _ (i.ended g h)
  · exact i.group
  · intro g h
    have h : s.group = some g := h
    rw [hg] at h
    cases h
    exact .inr hall
  · unfold call
    rw [Track.ending_snoc, i.ending]
    simp
  · by_cases h' : g + 1 < es.length
    · exact List.mem_append_left _ (i.ended g h')
    · have : g = es.length - 1 := by omega
      rw [this]
      exact hall

theorem Inv.ids {es : List (Option JsString)} {s : State} (i : Inv es s) : ∀ x ∈ s.track.groups, x.id ≠ es.length := by
  intro x hx he
  have hi := (Track.inv_reach i.reach).track
  have hm : x.id ∈ Track.ids s.track := List.mem_map_of_mem hx
  rw [hi.ids, i.acc, he] at hm
  simp at hm

theorem Inv.append_out {es : List (Option JsString)} {s : State} (i : Inv es s) :
    (Track.step s.track .append).1 = .group es.length := by
  rw [Track.step, Track.add, if_pos i.live, i.next]

/-- `this.#group = this.#track.appendGroup()`. -/
theorem Inv.appending {es : List (Option JsString)} {s : State} (i : Inv es s)
    (ha : ∀ g < es.length, (.closeGroup g, .ok) ∈ s.calls) :
    Inv (es ++ [none]) { call s .append with group := some es.length } ∧
    Track.find (call s .append).track es.length = some ⟨es.length, [], .live⟩ := by
  have ag : (call s .append).track.groups = s.track.groups ++ [⟨es.length, [], .live⟩] := by
    show (Track.step s.track .append).2.groups = _
    rw [Track.step, Track.add, if_pos i.live, i.next]
  have an : (call s .append).track.next = es.length + 1 ∧ (call s .append).track.status = .live := by
    show (Track.step s.track .append).2.next = _ ∧ (Track.step s.track .append).2.status = _
    rw [Track.step, Track.add, if_pos i.live, i.next]
    exact ⟨rfl, i.live⟩
  have af : Track.find (call s .append).track es.length = some ⟨es.length, [], .live⟩ := by
    unfold Track.find
    rw [ag]
    exact CatalogTrack.find_new i.ids _ _
  have calls : (call s .append).calls = s.calls ++ [(.append, .group es.length)] := by
    unfold call
    rw [i.append_out]
  refine ⟨⟨Machine.Reach.step (M := Track.machine) .append i.reach, an.2, ?_, ?_, ?_, ?_, ?_, ?_, ?_⟩, af⟩
  · rw [List.length_append, List.length_singleton]
    exact an.1
  · show Track.accepted (call s .append).calls = _
    rw [calls, Track.accepted_snoc, i.acc]
    simp [Track.taken, List.range_succ]
  · intro k
    show Track.content (call s .append).calls k = _
    rw [calls, Track.content_snoc, i.content, List.getElem?_append]
    by_cases hk : k < es.length
    · simp [Track.addition, hk]
    · rw [if_neg hk, List.getElem?_eq_none (l := es) (by omega)]
      by_cases he : k = es.length
      · simp [Track.addition, he, frames]
      · rw [List.getElem?_eq_none (l := [none]) (by simp; omega)]
        simp [Track.addition]
  · intro g hg
    show _ ∈ (call s .append).calls
    rw [calls]
    rw [List.length_append, List.length_singleton] at hg
    exact List.mem_append_left _ (ha g (by omega))
  · simp
  · intro g hg
    have hg : some es.length = some g := hg
    cases hg
    exact .inl ⟨_, af⟩
  · show Track.ending (call s .append).calls = _
    rw [calls, Track.ending_snoc, i.ending]
    simp

/-- `this.#group.writeFrame(buffer)`. -/
theorem Inv.writing {es : List (Option JsString)} {s : State} (i : Inv (es ++ [none]) s) (m : JsString)
    (hf : Track.find s.track es.length = some ⟨es.length, [], .live⟩) :
    (Track.step s.track (.write es.length (textEncode m))).1 = .ok ∧
    Inv (es ++ [some m]) (call s (.write es.length (textEncode m))) := by
  obtain ⟨w1, w2⟩ := Receive.group_step hf rfl (fun x => { x with frames := x.frames ++ [textEncode m] }) fun _ => rfl
  have w1' : (Track.step s.track (.write es.length (textEncode m))).1 = .ok := w1
  have cn := Frames.onGroup_same s.track es.length fun x => { x with frames := x.frames ++ [textEncode m] }
  have calls : (call s (.write es.length (textEncode m))).calls = s.calls ++ [(.write es.length (textEncode m), .ok)] := by
    unfold call
    rw [w1']
  have hl : (es ++ [some m]).length = (es ++ [none]).length := by simp
  refine ⟨w1', ⟨Machine.Reach.step (M := Track.machine) _ i.reach, cn.2.trans i.live, ?_, ?_, ?_, ?_, ?_, ?_, ?_⟩⟩
  · rw [hl]
    exact cn.1.trans i.next
  · rw [calls, hl, Track.accepted_snoc, i.acc]
    simp [Track.taken]
  · intro k
    rw [calls, Track.content_snoc, i.content, List.getElem?_append, List.getElem?_append]
    by_cases hk : k < es.length
    · simp [Track.addition, hk]
      omega
    · rw [if_neg hk, if_neg hk]
      by_cases he : k = es.length
      · simp [Track.addition, he, frames]
      · rw [List.getElem?_eq_none (l := [none]) (by simp; omega), List.getElem?_eq_none (l := [some m]) (by simp; omega)]
        simp [Track.addition]
        omega
  · intro g hg
    rw [hl] at hg
    rw [calls]
    exact List.mem_append_left _ (i.ended g hg)
  · rw [hl]
    exact i.group
  · intro g hg
    have hg : s.group = some g := hg
    have h2 := i.group
    rw [hg] at h2
    simp at h2
    subst h2
    exact .inl ⟨_, w2.this⟩
  · rw [calls, Track.ending_snoc, i.ending]
    simp

theorem clearTimer_same (s : State) : (clearTimer s).track = s.track ∧ (clearTimer s).calls = s.calls ∧
    (clearTimer s).group = s.group ∧ (clearTimer s).now = s.now ∧ (clearTimer s).ttl = s.ttl ∧
    (clearTimer s).expires = s.expires ∧ (clearTimer s).fresh = s.fresh := by
  unfold clearTimer
  split <;> exact ⟨rfl, rfl, rfl, rfl, rfl, rfl, rfl⟩

theorem closeGroup_same (s : State) : (closeGroup s).group = s.group ∧ (closeGroup s).now = s.now ∧
    (closeGroup s).ttl = s.ttl ∧ (closeGroup s).expires = s.expires ∧ (closeGroup s).timers = s.timers ∧
    (closeGroup s).fresh = s.fresh := by
  unfold closeGroup
  split <;> exact ⟨rfl, rfl, rfl, rfl, rfl, rfl⟩

theorem arm_same (s : State) : (arm s).track = s.track ∧ (arm s).calls = s.calls ∧ (arm s).group = s.group := by
  unfold arm
  split
  · exact ⟨rfl, rfl, rfl⟩
  · split <;> exact ⟨rfl, rfl, rfl⟩

/-- What `publish` does: it succeeds. -/
theorem publish_inv {es : List (Option JsString)} {s : State} (i : Inv es s) (m : JsString) :
    (publish m s).1 = .ok ∧ Inv (es ++ [some m]) (publish m s).2 ∧
    ∃ t : State, (publish m s).2 = arm t ∧ t.now = s.now ∧ t.ttl = s.ttl ∧ t.expires = s.expires ∧ t.fresh = s.fresh ∧
      t.timers = (clearTimer s).timers := by
  obtain ⟨c1, c2, c3, c4, c5, c6, c7⟩ := clearTimer_same s
  have i1 : Inv es (clearTimer s) := i.frame c1 c2 c3
  obtain ⟨i2, ha⟩ := i1.closing
  obtain ⟨g1, g2, g3, g4, g5, g6⟩ := closeGroup_same (clearTimer s)
  obtain ⟨i3, hf⟩ := i2.appending ha
  obtain ⟨w, i4⟩ := i3.writing m hf
  have e : publish m s = (.ok, arm (call { call (closeGroup (clearTimer s)) .append with group := some es.length }
      (.write es.length (textEncode m)))) := by
    unfold publish
    dsimp only
    rw [i2.append_out]
    dsimp only
    rw [w]
  rw [e]
  obtain ⟨a1, a2, a3⟩ := arm_same (call { call (closeGroup (clearTimer s)) .append with group := some es.length }
      (.write es.length (textEncode m)))
  exact ⟨rfl, i4.frame a1 a2 a3, _, rfl, g2.trans c4, g3.trans c5, g4.trans c6, g6.trans c7, g5⟩

/-- What `clear` does: it succeeds. -/
theorem clear_inv {es : List (Option JsString)} {s : State} (i : Inv es s) :
    (clear s).1 = .ok ∧ Inv (es ++ [none]) (clear s).2 ∧
    (clear s).2.now = s.now ∧ (clear s).2.ttl = s.ttl ∧ (clear s).2.expires = s.expires ∧ (clear s).2.fresh = s.fresh ∧
      (clear s).2.timers = s.timers := by
  obtain ⟨i2, ha⟩ := i.closing
  obtain ⟨g1, g2, g3, g4, g5, g6⟩ := closeGroup_same s
  obtain ⟨i3, -⟩ := i2.appending ha
  have e : clear s = (.ok, { call (closeGroup s) .append with group := some es.length }) := by
    unfold clear
    dsimp only
    rw [i2.append_out]
  rw [e]
  exact ⟨rfl, i3, g2, g3, g4, g6, g5⟩

/-! ## A reader that came late -/

/-- A consumer that has, and will get, no group before this one. -/
structure Above (k : Nat) (u : Track.Sub) : Prop where
  ready : ∀ g, u.fetch = .ready (.value (some g)) → k ≤ g
  done : ∀ g, u.fetch = .done (.value g) → k ≤ g
  current : ∀ g, u.current = some g → k ≤ g

/-- And the track with it. -/
structure Low (k c : Nat) (tr : Track.Trace) (t : Track.State) : Prop where
  latest : ∀ l, t.latest = some l → k ≤ l
  next : k ≤ t.next
  sub : ∃ u, t.subs[c]? = some u ∧ Above k u
  delivered : ∀ d ∈ Track.delivered tr c, k ≤ d.1

theorem wait_plain (st : Status) (b : Bool) : (∀ g, Track.wait st b ≠ .ready (.value (some g))) ∧
    ∀ g, Track.wait st b ≠ .done (.value g) := by
  unfold Track.wait
  cases b <;> cases st <;> simp

theorem startFetch_above {k : Nat} {t : Track.State} {u : Track.Sub} (h : Above k u)
    (hl : ∀ l, t.latest = some l → k ≤ l) : Above k (Track.startFetch t u) := by
  have hw := wait_plain t.status u.closed
  unfold Track.startFetch
  split
  · exact ⟨fun _ h => by simp at h, fun _ h => by simp at h, h.current⟩
  · split
    · split
      · next g hg =>
        refine ⟨fun _ h => by simp at h, fun x h => ?_, h.current⟩
        simp at h
        exact h ▸ hl _ hg
      · exact ⟨fun x h => absurd h (hw.1 x), fun x h => absurd h (hw.2 x), h.current⟩
    · exact ⟨fun x h => absurd h (hw.1 x), fun x h => absurd h (hw.2 x), h.current⟩

theorem run_above {k : Nat} {t : Track.State} {u : Track.Sub} (h : Above k u) : Above k (Track.run t u).2 := by
  have hw := wait_plain t.status u.closed
  unfold Track.run
  split
  · next g hg =>
    refine ⟨fun _ h => by simp at h, fun x hx => ?_, h.current⟩
    simp at hx
    exact hx ▸ h.ready _ hg
  · exact ⟨fun x h => absurd h (hw.1 x), fun x h => absurd h (hw.2 x), h.current⟩
  · exact ⟨fun _ h => by simp at h, fun _ h => by simp at h, h.current⟩
  · exact ⟨fun _ h => by simp at h, fun _ h => by simp at h, h.current⟩
  · exact h

theorem moved_above {k g : Nat} {u : Track.Sub} (h : Above k u) (hg : k ≤ g) :
    Above k { u with current := some g, frame := 0 } :=
  ⟨h.ready, h.done, fun x hx => by injection hx with hx; exact hx ▸ hg⟩

theorem nextGroup_above {k : Nat} {t : Track.State} {u : Track.Sub} (h : Above k u)
    (hl : ∀ l, t.latest = some l → k ≤ l) : Above k (Track.nextGroup t u).2 := by
  have hs := startFetch_above h hl
  unfold Track.nextGroup
  split
  · next g hg => exact moved_above hs (h.done _ hg)
  · exact ⟨hs.ready, hs.done, fun _ h => by simp at h⟩
  · exact h
  · exact h

theorem nextFrame_above {k : Nat} {t : Track.State} {u : Track.Sub} (p : Track.Pick) (h : Above k u)
    (hl : ∀ l, t.latest = some l → k ≤ l) :
    Above k (Track.nextFrame t u p).2 ∧ ∀ g j b, (Track.nextFrame t u p).1 = .frame g j b → k ≤ g := by
  have hs := startFetch_above h hl
  unfold Track.nextFrame
  split
  · split
    · next g hg =>
      refine ⟨⟨h.ready, h.done, h.current⟩, fun x j b hx => ?_⟩
      injection hx with hx
      exact hx ▸ h.current _ hg
    · exact ⟨h, fun _ _ _ h => by simp at h⟩
  · next g hg =>
    split
    · exact ⟨hs, fun _ _ _ h => by simp at h⟩
    · exact ⟨moved_above hs (h.done _ hg), fun _ _ _ h => by simp at h⟩
  all_goals exact ⟨h, fun _ _ _ h => by simp at h⟩

/-- A step of some consumer. -/
theorem Low.onSub {k c : Nat} {tr : Track.Trace} {t : Track.State} (h : Low k c tr t) (op : Track.Op) (c' : Nat)
    (f : Track.Sub → Track.Out × Track.Sub) (hf : ∀ u, Above k u → Above k (f u).2)
    (hd : ∀ u, Above k u → ∀ d, Track.delivery c (op, (f u).1) = some d → c' = c ∧ k ≤ d.1)
    (hi : ∀ u, ∀ d, Track.delivery c (op, (f u).1) = some d → c' = c)
    (hn : Track.delivery c (op, .invalid) = none) :
    Low k c (tr ++ [(op, (Track.onSub t c' f).1)]) (Track.onSub t c' f).2 := by
  obtain ⟨u, hu, ha⟩ := h.sub
  unfold Track.onSub
  cases hc : t.subs[c']? with
  | none =>
    refine ⟨h.latest, h.next, h.sub, ?_⟩
    rw [Track.delivered_snoc]
    simp only [hn]
    simpa using h.delivered
  | some v =>
    refine ⟨h.latest, h.next, ?_, ?_⟩
    · dsimp only
      by_cases he : c' = c
      · subst he
        rw [hu] at hc
        cases hc
        exact ⟨_, List.getElem?_set_self (List.getElem?_eq_some_iff.1 hu).1, hf _ ha⟩
      · exact ⟨u, by rw [List.getElem?_set_ne he]; exact hu, ha⟩
    · intro d hdm
      rw [Track.delivered_snoc] at hdm
      rcases List.mem_append.1 hdm with hdm | hdm
      · exact h.delivered d hdm
      · rw [Option.mem_toList] at hdm
        have he := hi v d hdm
        subst he
        rw [hu] at hc
        cases hc
        exact (hd _ ha d hdm).2

/-- A step of the producer. -/
theorem Low.other {k c : Nat} {tr : Track.Trace} {t t' : Track.State} (h : Low k c tr t) (e : Track.Op × Track.Out)
    (he : Track.delivery c e = none) (h1 : ∀ l, t'.latest = some l → k ≤ l) (h2 : k ≤ t'.next)
    (h3 : ∀ u, t.subs[c]? = some u → Above k u → ∃ v, t'.subs[c]? = some v ∧ Above k v) : Low k c (tr ++ [e]) t' := by
  obtain ⟨u, hu, ha⟩ := h.sub
  refine ⟨h1, h2, h3 u hu ha, ?_⟩
  rw [Track.delivered_snoc, he]
  simpa using h.delivered

theorem settle_above {k : Nat} {u : Track.Sub} (h : Above k u) (x : Option Nat) (hx : ∀ g, x = some g → k ≤ g) :
    Above k { u with fetch := u.fetch.settle (.value x) } := by
  refine ⟨fun g hg => ?_, fun g hg => ?_, h.current⟩
  · dsimp only at hg
    unfold Track.Fetch.settle at hg
    split at hg
    · injection hg with hg
      injection hg with hg
      exact hx g hg
    · exact h.ready g hg
  · dsimp only at hg
    unfold Track.Fetch.settle at hg
    split at hg
    · cases hg
    · exact h.done g hg

theorem Low.add {k c : Nat} {tr : Track.Trace} {t : Track.State} (h : Low k c tr t) (op : Track.Op) (g : Track.Grp)
    (o : Track.Out) (hg : t.next ≤ g.id) (hd : ∀ o, Track.delivery c (op, o) = none) :
    Low k c (tr ++ [(op, (Track.add t g o).1)]) (Track.add t g o).2 := by
  have hk : k ≤ g.id := Nat.le_trans h.next hg
  unfold Track.add
  split
  · refine h.other _ (hd _) (fun l hl => ?_) (Nat.le_succ_of_le hk) fun u hu ha => ?_
    · injection hl with hl
      exact hl ▸ hk
    · refine ⟨_, ?_, settle_above ha (some g.id) fun x hx => by injection hx with hx; exact hx ▸ hk⟩
      show (List.map _ t.subs)[c]? = _
      rw [List.getElem?_map, hu]
      rfl
  · exact h.other _ (hd _) h.latest (Nat.le_succ_of_le hk) fun u hu ha => ⟨u, hu, ha⟩

theorem Low.onGroup {k c : Nat} {tr : Track.Trace} {t : Track.State} (h : Low k c tr t) (op : Track.Op) (id : Nat)
    (f : Track.Grp → Track.Grp) (hd : ∀ o, Track.delivery c (op, o) = none) :
    Low k c (tr ++ [(op, (Track.onGroup t id f).1)]) (Track.onGroup t id f).2 := by
  unfold Track.onGroup
  split
  · split <;> exact h.other _ (hd _) h.latest h.next fun u hu ha => ⟨u, hu, ha⟩
  · exact h.other _ (hd _) h.latest h.next fun u hu ha => ⟨u, hu, ha⟩

theorem Low.ending {k c : Nat} {tr : Track.Trace} {t : Track.State} (h : Low k c tr t) (e : Track.Op × Track.Out)
    (st : Status) (hd : Track.delivery c e = none) : Low k c (tr ++ [e]) { Track.update t none with status := st } := by
  refine h.other _ hd (fun l hl => by cases hl) h.next fun u hu ha => ⟨_, ?_, settle_above ha none fun g h => by cases h⟩
  show (List.map _ t.subs)[c]? = _
  rw [List.getElem?_map, hu]
  rfl

/-- No step gives the consumer an older group. -/
theorem Low.step {k c : Nat} {tr : Track.Trace} {t : Track.State} (h : Low k c tr t) (op : Track.Op) :
    Low k c (tr ++ [(op, (Track.step t op).1)]) (Track.step t op).2 := by
  cases op with
  | append => exact h.add _ _ _ (Nat.le_refl _) fun o => by rfl
  | insert id fs st =>
    unfold Track.step
    dsimp only
    split
    · exact h.other _ rfl h.latest h.next fun u hu ha => ⟨u, hu, ha⟩
    · exact h.add _ _ _ (by simp only; omega) fun o => by rfl
  | write id b => exact h.onGroup _ _ _ fun o => by rfl
  | closeGroup id => exact h.onGroup _ _ _ fun o => by rfl
  | abortGroup id => exact h.onGroup _ _ _ fun o => by rfl
  | close =>
    unfold Track.step
    dsimp only
    split
    · exact h.ending _ _ rfl
    · exact h.other _ rfl h.latest h.next fun u hu ha => ⟨u, hu, ha⟩
  | abort =>
    unfold Track.step
    dsimp only
    split
    · exact h.ending _ _ rfl
    · exact h.other _ rfl h.latest h.next fun u hu ha => ⟨u, hu, ha⟩
  | consume =>
    refine h.other _ rfl h.latest h.next fun u hu ha => ⟨u, ?_, ha⟩
    show (t.subs ++ [_])[c]? = _
    rw [List.getElem?_append_left (List.getElem?_eq_some_iff.1 hu).1]
    exact hu
  | run c' =>
    exact h.onSub _ c' _ (fun u => run_above) (fun _ _ d hd => by cases hd) (fun _ d hd => by cases hd) rfl
  | nextGroup c' =>
    exact h.onSub _ c' _ (fun u ha => nextGroup_above ha h.latest) (fun _ _ d hd => by cases hd) (fun _ d hd => by cases hd) rfl
  | closeSub c' =>
    refine h.onSub _ c' _ (fun u ha => ⟨fun _ h => by simp at h, fun _ h => by simp at h, fun _ h => by simp at h⟩)
      (fun _ _ d hd => by cases hd) (fun _ d hd => by cases hd) rfl
  | nextFrame c' p =>
    have key : ∀ o d, Track.delivery c (.nextFrame c' p, o) = some d → c' = c ∧ ∃ g j b, o = .frame g j b ∧ d = (g, j, b) := by
      intro o d hd
      unfold Track.delivery at hd
      split at hd
      · next c'' p' g j b heq =>
        injection heq with e1 e2
        injection e1 with e1 _
        split at hd
        · next he =>
          injection hd with hd
          exact ⟨e1.trans he, g, j, b, e2, hd.symm⟩
        · cases hd
      · cases hd
    refine h.onSub _ c' _ (fun u ha => (nextFrame_above p ha h.latest).1) (fun u ha d hd => ?_) (fun u d hd => (key _ d hd).1) rfl
    obtain ⟨e1, g, j, b, e2, e3⟩ := key _ d hd
    exact ⟨e1, by rw [e3]; exact (nextFrame_above p ha h.latest).2 g j b e2⟩

theorem Low.call {k c : Nat} {s : State} (h : Low k c s.calls s.track) (op : Track.Op) :
    Low k c (call s op).calls (call s op).track := h.step op

theorem Low.closeGroup {k c : Nat} {s : State} (h : Low k c s.calls s.track) :
    Low k c (closeGroup s).calls (closeGroup s).track := by
  unfold Chat.closeGroup
  split
  · exact h
  · exact h.call _

theorem Low.clear {k c : Nat} {s : State} (h : Low k c s.calls s.track) :
    Low k c (clear s).2.calls (clear s).2.track := by
  unfold Chat.clear
  dsimp only
  split <;> exact h.closeGroup.call .append

/-- In a chat, too. -/
theorem Low.chat {k c : Nat} {s : State} (h : Low k c s.calls s.track) (op : Op) :
    Low k c (Chat.step s op).2.calls (Chat.step s op).2.track := by
  cases op with
  | publish m =>
    have h1 : Low k c (clearTimer s).calls (clearTimer s).track := by
      rw [(clearTimer_same s).1, (clearTimer_same s).2.1]
      exact h
    have h2 := h1.closeGroup.call .append
    show Low k c (publish m s).2.calls (publish m s).2.track
    unfold publish
    dsimp only
    split
    · next g hg =>
      split
      · rw [(arm_same _).1, (arm_same _).2.1]
        exact h2.step _
      · exact h2.step _
    · exact h2
  | clear => exact h.clear
  | close =>
    show Low k c (clearTimer (Chat.closeGroup s)).calls (clearTimer (Chat.closeGroup s)).track
    rw [(clearTimer_same _).1, (clearTimer_same _).2.1]
    exact h.closeGroup
  | setTtl ttl => exact h
  | tick n => exact h
  | fire i =>
    unfold Chat.step
    dsimp only
    split
    · exact Low.clear (s := { s with timers := s.timers.filter fun t => t.1 != i }) h
    · exact h
  | read op =>
    unfold Chat.step
    dsimp only
    split
    · exact h.call op
    · exact h

theorem Low.chats {k c : Nat} (ttl : Option Nat) (ops : List Op) : ∀ {s : State}, Low k c s.calls s.track →
    Low k c ((machine ttl).runFrom s ops).2.calls ((machine ttl).runFrom s ops).2.track := by
  induction ops with
  | nil => exact fun h => h
  | cons op ops ih => exact fun h => ih (h.chat op)

/-- The consumer is new. -/
theorem Inv.late {es : List (Option JsString)} {s : State} (i : Inv es s) :
    Low (es.length - 1) s.track.subs.length (call s .consume).calls (call s .consume).track := by
  have g := Track.inv_reach i.reach
  have hl : ∀ l, s.track.latest = some l → es.length - 1 ≤ l := by
    intro l h
    rw [g.track.latest, if_pos i.live, i.acc, List.getLast?_range] at h
    split at h
    · cases h
    · injection h with h
      omega
  refine ⟨hl, by have := i.next; show _ ≤ s.track.next; omega, ⟨_, List.getElem?_concat_length, ?_⟩, ?_⟩
  · exact startFetch_above ⟨fun _ h => by simp at h, fun _ h => by simp at h, fun _ h => by simp at h⟩ hl
  · intro d hd
    have : Track.delivered (call s .consume).calls s.track.subs.length = [] := by
      unfold Chat.call
      rw [Track.delivered_snoc, (g.fresh _ (Nat.le_refl _)).2.1]
      rfl
    rw [this] at hd
    cases hd

end Verif.Js.Chat
