import Verif.Js.SubscriberCount

/-!
# Property C98: consuming in the browser

Which SUBSCRIBE messages the browser sends, where groups go, what readers are told, and when a
subscription ends.
-/

set_option autoImplicit false

namespace Verif.Props.JsSubscriber

open Verif Verif.Js.Subscriber

/-- The subscription was made: the broadcast and the name of its track. -/
def Has (tr : Trace) (i b : Nat) (name : Str) : Prop := (subscribes tr)[i]? = some (b, name)

/-- The subscription was made and neither side ended it. -/
def Running (tr : Trace) (i : Nat) : Prop :=
  i < (subscribes tr).length ∧ ¬ PeerEnded tr i ∧ ¬ Unsubscribed tr i

theorem sub_of {tr : Trace} {s : State} (h : machine.Reach tr s) {i b : Nat} {name : Str} :
    Has tr i b name ↔ ∃ k, s.subs[i]? = some k ∧ k.broadcast = b ∧ k.name = name := by
  unfold Has
  rw [(base_reach h).subs, List.getElem?_map, keys_get]
  cases hk : s.subs[i]? with
  | none => simp
  | some k => simp [Sub.key]

theorem length_of {tr : Trace} {s : State} (h : machine.Reach tr s) :
    (subscribes tr).length = s.subs.length := by
  rw [(base_reach h).subs]
  simp [State.keys]

theorem key_of {tr : Trace} {s : State} (h : machine.Reach tr s) {i : Nat} {k : Sub}
    (hk : s.subs[i]? = some k) : KeyOk tr i k.key :=
  (base_reach h).ok i _ (by rw [keys_get, hk]; rfl)

theorem get_sub {tr : Trace} {s : State} (h : machine.Reach tr s) {i : Nat}
    (hi : i < (subscribes tr).length) : ∃ k, s.subs[i]? = some k :=
  ⟨_, List.getElem?_eq_getElem (by rw [← length_of h]; exact hi)⟩

/-- The ids of the SUBSCRIBE messages are 0, 1, 2 and so on. -/
theorem c98_ids {tr : Trace} {s : State} (h : machine.Reach tr s) (b : Nat) (name : Str) (i c : Nat)
    (ho : (step s (.subscribe b name)).1 = .subscribed i c) : i = (subscribes tr).length := by
  rw [length_of h]
  rw [step] at ho
  split at ho
  · split at ho
    · split at ho <;> cases ho
    · split at ho
      · cases ho
      · cases ho
        rfl
  · cases ho

/-- A group is handed to the track of its subscription exactly while the subscription is running. -/
theorem c98_group {tr : Trace} {s : State} (h : machine.Reach tr s) (i : Nat) :
    ((step s (.group i)).1 = .delivered i ↔ Running tr i) ∧
    ((step s (.group i)).1 = .unknown ↔ ¬ Running tr i) := by
  unfold Running
  rw [length_of h, step]
  cases hk : s.subs[i]? with
  | none =>
    have : ¬ i < s.subs.length := by
      intro hi
      rw [List.getElem?_eq_getElem hi] at hk
      cases hk
    simp [this]
  | some k =>
    have hi := (List.getElem?_eq_some_iff.mp hk).1
    have o := (key_of h hk).over
    unfold Sub.key at o
    dsimp only at o
    cases ho : k.phase.isOver with
    | true =>
      have := o.mp ho
      simp only [hi, if_true, true_and, ← not_or]
      simp [this, ho]
    | false =>
      have hn : ¬ (PeerEnded tr i ∨ Unsubscribed tr i) := fun x => by
        rw [o.mpr x] at ho
        cases ho
      simp only [hi, if_true, true_and, ← not_or]
      simp [hn, ho]

/-- What the readers of a track are told: that it is live while its subscription is running, that it
failed if the peer ended it with an error, and that it is over otherwise. -/
theorem c98_told {tr : Trace} {s : State} (h : machine.Reach tr s) (i : Nat)
    (hi : i < (subscribes tr).length) :
    ((step s (.status i)).1 = .status .live ↔ Running tr i) ∧
    ((step s (.status i)).1 = .status .aborted ↔ (.peerEnd i true, .ok) ∈ tr) ∧
    ((step s (.status i)).1 = .status .closed ↔
      (.peerEnd i false, .ok) ∈ tr ∨ Unsubscribed tr i) := by
  obtain ⟨k, hk⟩ := get_sub h hi
  have o := key_of h hk
  have e : (step s (.status i)).1 = .status k.status := by rw [step, hk]
  rw [e]
  simp only [Out.status.injEq]
  refine ⟨?_, o.aborted, o.closed⟩
  have hr : Running tr i ↔ ¬ (PeerEnded tr i ∨ Unsubscribed tr i) := by
    rw [not_or]
    exact and_iff_right hi
  have hl := o.live
  rw [hr, ← o.over]
  unfold Sub.key at hl ⊢
  dsimp only at hl ⊢
  rw [hl]
  simp

/-- With no consumer closed twice: `subscribe` joins the subscription of the same track if the cache
has one, and otherwise sends a SUBSCRIBE message.  (Missing: without that assumption the cache is
closed early, see `c98_early`.) -/
theorem c98_same_partial {tr : Trace} {s : State} (h : machine.Reach tr s) (ht : Tidy tr)
    (b : Nat) (hb : b < (paths tr).length) (name : Str) :
    (∀ i, Has tr i b name → ¬ Cleaned tr i → ∃ c, (step s (.subscribe b name)).1 = .track i c) ∧
    ((∀ i, Has tr i b name → Cleaned tr i) →
      (step s (.subscribe b name)).1 = .subscribed (subscribes tr).length 0) := by
  have i := tinv_reach h ht
  rw [i.paths, List.length_map] at hb
  obtain ⟨r, hr⟩ : ∃ r, s.brs[b]? = some r := ⟨_, List.getElem?_eq_getElem hb⟩
  have x := i.br b r hr
  rw [step, hr]
  dsimp only
  constructor
  · intro j hj hc
    obtain ⟨k, hk, kb, kn⟩ := (sub_of h).mp hj
    have hd : k.phase.isClean = false := by
      cases hd : k.phase.isClean with
      | false => rfl
      | true => exact absurd ((key_of h hk).clean.mp hd) hc
    obtain ⟨r', hr', hg⟩ := (i.sub j k hk).entry hd
    rw [kb, hr] at hr'
    cases hr'
    rw [kn] at hg
    rw [hg]
    dsimp only
    rw [hk]
    exact ⟨_, rfl⟩
  · intro hall
    cases hg : get r.tracks name with
    | none =>
      dsimp only
      rw [if_neg (by rw [x.live]; simp), length_of h]
    | some j =>
      obtain ⟨k, hk, kb, kn, kc⟩ := x.tracks name j hg
      have := (key_of h hk).clean.mpr (hall j ((sub_of h).mpr ⟨k, hk, kb, kn⟩))
      unfold Sub.key at this
      rw [kc] at this
      cases this

/-- With no consumer closed twice: of two subscriptions to one track of one path, the cache has
forgotten at least one.  So there is at most one running subscription to a track.  (Missing as
above.) -/
theorem c98_dedup_partial {tr : Trace} {s : State} (h : machine.Reach tr s) (ht : Tidy tr)
    (i j b b' : Nat) (name path : Str) (hi : Has tr i b name) (hj : Has tr j b' name)
    (hp : (paths tr)[b]? = some path) (hp' : (paths tr)[b']? = some path)
    (hci : ¬ Cleaned tr i) (hcj : ¬ Cleaned tr j) : i = j := by
  have v := tinv_reach h ht
  rw [v.paths, List.getElem?_map] at hp hp'
  obtain ⟨r, hr, hrp⟩ := Option.map_eq_some_iff.mp hp
  obtain ⟨r', hr', hrp'⟩ := Option.map_eq_some_iff.mp hp'
  have t := (v.br b r hr).table
  have t' := (v.br b' r' hr').table
  rw [hrp] at t
  rw [hrp', t] at t'
  cases t'
  obtain ⟨k, hk, kb, kn⟩ := (sub_of h).mp hi
  obtain ⟨k', hk', kb', kn'⟩ := (sub_of h).mp hj
  have dirty : ∀ {i : Nat} {k : Sub}, s.subs[i]? = some k → ¬ Cleaned tr i →
      k.phase.isClean = false := by
    intro i k hk hc
    cases hd : k.phase.isClean with
    | false => rfl
    | true => exact absurd ((key_of h hk).clean.mp hd) hc
  obtain ⟨q, hq, hg⟩ := (v.sub i k hk).entry (dirty hk hci)
  obtain ⟨q', hq', hg'⟩ := (v.sub j k' hk').entry (dirty hk' hcj)
  rw [kb] at hq
  rw [kb'] at hq'
  rw [hq] at hq'
  cases hq'
  rw [kn] at hg
  rw [kn', hg] at hg'
  cases hg'
  rfl

/-- A subscription is forgotten only after it ended, or could not be made. -/
theorem c98_kept {tr : Trace} {s : State} (h : machine.Reach tr s) (i : Nat) (hc : Cleaned tr i) :
    PeerEnded tr i ∨ Unsubscribed tr i ∨ Failed tr i := by
  have b := base_reach h
  have hi : i < s.keys.length := Classical.byContradiction fun hn =>
    (no_events (b.fresh i (by omega))).2.2.2 hc
  have o := b.ok i _ (List.getElem?_eq_getElem hi)
  have hcl := o.clean.mpr hc
  have ho := o.over
  have hl := o.lost
  generalize s.keys[i] = x at hcl ho hl
  obtain ⟨xb, xn, xs, xp⟩ := x
  dsimp only at hcl ho hl
  cases xp with
  | asked => cases hcl
  | running c => cases hcl
  | over c => exact (ho.mp rfl).imp_right .inl
  | lost c => exact .inr (.inr (hl.mp rfl))

/-- In every history: the browser does not unsubscribe before the application has closed consumers as
often as it was given one. -/
theorem c98_counted {tr : Trace} {s : State} (h : machine.Reach tr s) (i : Nat)
    (ho : (step s (.unsubscribe i)).1 = .unsubscribed) : Balanced tr i := by
  rw [step] at ho
  split at ho
  · rename_i k hk
    split at ho
    · rename_i call hp
      split at ho
      · rename_i hu
        have o := (cinv_reach h).sub i k hk
        have hlt := o.call call hp
        obtain ⟨g1, g2⟩ := o.calls _ (List.getElem_mem hlt)
        refine (o.settled _ g1 g2 ?_).resolve_right (by rw [hp]; simp [Phase.active])
        intro hpend
        unfold isUnused at hu
        rw [Js.Unused.step, List.getElem?_eq_getElem hlt] at hu
        simp [hpend] at hu
      · cases ho
    · cases ho
  · cases ho

/-! ## What goes wrong -/

/-- The browser never unsubscribes, though its application has closed all its consumers: the consumer
in the cache counts.  Nor does it ever forget a broadcast. -/
theorem c98_never {tr : Trace} {s : State} (h : machine.Reach tr s) (ht : Tidy tr) :
    (∀ i, (step s (.unsubscribe i)).1 = .invalid ∧ ¬ Unsubscribed tr i) ∧
    ∀ b, (step s (.dropBroadcast b)).1 = .invalid := by
  have now : ∀ {tr s}, machine.Reach tr s → Tidy tr → ∀ i, (step s (.unsubscribe i)).1 = .invalid := by
    intro tr s h ht i
    have v := tinv_reach h ht
    rw [step]
    cases hk : s.subs[i]? with
    | none => rfl
    | some k =>
      have y := v.sub i k hk
      dsimp only
      cases hp : k.phase with
      | running call =>
        dsimp only
        rw [wok_pending (y.watch (by rw [hp]; rfl)).1 (y.call call hp)]
        rfl
      | _ => rfl
  refine ⟨fun i => ⟨now h ht i, ?_⟩, ?_⟩
  · refine Machine.Reach.induct (M := machine) (P := fun tr _ => Tidy tr → ¬ Unsubscribed tr i) ?_ ?_ h ht
    · intro _ hx
      cases hx
    · intro tr s op h ih ht hx
      have ht' := tidy_prefix ht
      unfold Unsubscribed at hx
      rw [mem_snoc] at hx
      rcases hx with hx | ⟨rfl, hx⟩
      · exact ih ht' hx
      · rw [show (machine.step s (.unsubscribe i)).1 = _ from now h ht' i] at hx
        cases hx
  · intro b
    have v := tinv_reach h ht
    rw [step]
    cases hr : s.brs[b]? with
    | none => rfl
    | some r =>
      have x := v.br b r hr
      dsimp only
      rw [wok_pending x.watch x.calls, if_neg (by simp)]

/-- So the groups of a track nobody reads are received until the peer ends it. -/
theorem c98_flood {tr : Trace} {s : State} (h : machine.Reach tr s) (ht : Tidy tr) (i : Nat)
    (hi : i < (subscribes tr).length) (hp : ¬ PeerEnded tr i) :
    (step s (.group i)).1 = .delivered i :=
  (c98_group h i).1.mpr ⟨hi, hp, ((c98_never h ht).1 i).2⟩

/-- A subscription whose stream could not be opened stays live for its readers for ever. -/
theorem c98_lost {tr : Trace} {s : State} (h : machine.Reach tr s) (i : Nat) (hf : Failed tr i) :
    (step s (.status i)).1 = .status .live ∧ (step s (.peerEnd i true)).1 = .invalid ∧
      (step s (.peerEnd i false)).1 = .invalid ∧ (step s (.unsubscribe i)).1 = .invalid := by
  have b := base_reach h
  have hi : i < s.keys.length := Classical.byContradiction fun hn =>
    (no_events (b.fresh i (by omega))).2.2.1 hf
  obtain ⟨k, hk⟩ : ∃ k, s.subs[i]? = some k :=
    ⟨_, List.getElem?_eq_getElem (by simpa [State.keys] using hi)⟩
  have o := key_of h hk
  have hl := o.lost.mpr hf
  have hlive := o.live
  unfold Sub.key at hl hlive
  dsimp only at hl hlive
  cases hp : k.phase with
  | lost c =>
    rw [hp] at hlive
    have hs := hlive.mpr rfl
    refine ⟨?_, ?_, ?_, ?_⟩ <;> simp [step, hk, hp, hs]
  | _ =>
    rw [hp] at hl
    cases hl

/-! ## Cases -/

/-- A test for `Tidy`. -/
def tidyB (tr : Trace) : Bool :=
  tr.all fun e => match e with
    | (.closeTrack i c, .ok) => tr.count (.closeTrack i c, .ok) ≤ 1
    | (.closeBroadcast b c, .ok) => tr.count (.closeBroadcast b c, .ok) ≤ 1
    | _ => true

theorem tidy_of {tr : Trace} (h : tidyB tr = true) : Tidy tr := by
  unfold tidyB at h
  rw [List.all_eq_true] at h
  constructor
  · intro i c
    by_cases hm : (.closeTrack i c, .ok) ∈ tr
    · simpa using h _ hm
    · rw [List.count_eq_zero.mpr hm]
      omega
  · intro b c
    by_cases hm : (.closeBroadcast b c, .ok) ∈ tr
    · simpa using h _ hm
    · rw [List.count_eq_zero.mpr hm]
      omega

/-- Two consumers of one path and three of one track share a subscription; another track has its own.
The first one is ended by the peer; a new subscription is made once it is forgotten. -/
def shared : List Op :=
  [.consume [1], .consume [1], .subscribe 0 [7], .answer 0, .subscribe 0 [7], .clone 0,
    .subscribe 0 [8], .group 0, .closeTrack 0 0, .peerEnd 0 false, .group 0, .status 0, .status 1,
    .subscribe 0 [7], .cleanup 0, .subscribe 0 [7], .group 2, .group 3]

example : (machine.run shared).1.map (·.2) =
    [.broadcast 0 0, .broadcast 0 2, .subscribed 0 0, .ok, .track 0 2, .track 0 3, .subscribed 1 0,
      .delivered 0, .ok, .ok, .unknown, .status .closed, .status .live, .track 0 4, .ok,
      .subscribed 2 0, .delivered 2, .unknown] ∧ tidyB (machine.run shared).1 = true := by
  decide +kernel

/-- The application closes everything it has, nothing twice, and yet every group is received. -/
def abandoned : List Op :=
  [.consume [1], .subscribe 0 [7], .answer 0, .clone 0, .group 0, .closeTrack 0 0, .closeTrack 0 2,
    .closeBroadcast 0 0]

theorem c98_witness : let r := machine.run abandoned
    Tidy r.1 ∧ AllClosed r.1 0 ∧ (step r.2 (.unsubscribe 0)).1 = .invalid ∧
      (step r.2 (.dropBroadcast 0)).1 = .invalid ∧ (step r.2 (.group 0)).1 = .delivered 0 := by
  refine ⟨tidy_of (by decide +kernel), ?_, by decide +kernel, by decide +kernel, by decide +kernel⟩
  have e : (machine.run abandoned).1 =
      [(.consume [1], .broadcast 0 0), (.subscribe 0 [7], .subscribed 0 0), (.answer 0, .ok),
        (.clone 0, .track 0 2), (.group 0, .delivered 0), (.closeTrack 0 0, .ok),
        (.closeTrack 0 2, .ok), (.closeBroadcast 0 0, .ok)] := by decide +kernel
  rw [e]
  intro op c h
  rcases h with h | h
  · simp at h
    simp [h.2]
  · simp at h
    simp [h.2]

/-- A stream that cannot be opened: forgotten by the cache, but live for its reader. -/
example : (machine.run [.consume [1], .subscribe 0 [7], .openFails 0, .cleanup 0, .status 0,
      .peerEnd 0 true]).1.map (·.2) =
    [.broadcast 0 0, .subscribed 0 0, .ok, .ok, .status .live, .invalid] := by decide +kernel

/-- Without tidiness: one of two readers is closed three times, and the subscription of the other one
ends. -/
theorem c98_early :
    (machine.run [.consume [1], .subscribe 0 [7], .answer 0, .clone 0, .closeTrack 0 0, .closeTrack 0 0,
      .unsubscribe 0, .closeTrack 0 0, .unsubscribe 0, .status 0]).1.map (·.2) =
    [.broadcast 0 0, .subscribed 0 0, .ok, .track 0 2, .ok, .ok, .invalid, .ok, .unsubscribed,
      .status .closed] := by decide +kernel

end Verif.Props.JsSubscriber
