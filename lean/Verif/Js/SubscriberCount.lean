import Verif.Js.SubscriberLemmas

/-!
# The count of consumers in all histories of the consuming side
-/

set_option autoImplicit false

namespace Verif.Js.Subscriber

open Verif

theorem handed_snoc (tr : Trace) (op : Op) (o : Out) (i : Nat) : handed (tr ++ [(op, o)]) i =
    handed tr i + (match o with
      | .subscribed j _ => if j = i then 1 else 0
      | .track j _ => if j = i then 1 else 0
      | _ => 0) := by
  unfold handed
  rw [List.countP_append, List.countP_singleton]
  congr 1
  cases o <;> simp

theorem closes_snoc (tr : Trace) (op : Op) (o : Out) (i : Nat) : closes (tr ++ [(op, o)]) i =
    closes tr i + (match op, o with
      | .closeTrack j _, .ok => if j = i then 1 else 0
      | _, _ => 0) := by
  unfold closes
  rw [List.countP_append, List.countP_singleton]
  congr 1
  cases op <;> cases o <;> simp

theorem Balanced.mono {tr : Trace} {i : Nat} (h : Balanced tr i) (e : Op × Out) :
    Balanced (tr ++ [e]) i := by
  obtain ⟨now, later, rfl, h1⟩ := h
  exact ⟨now, later ++ [e], by simp, h1⟩

/-- Is the cached consumer closed? -/
def cachedN (w : Unused.State) : Nat := if w.handles[1]? = some true then 1 else 0

/-- The count of a subscription. -/
structure CountOk (tr : Trace) (i : Nat) (k : Sub) : Prop where
  two : 2 ≤ k.watch.handles.length
  given : 0 < handed tr i
  count : k.watch.consumers + closes tr i + cachedN k.watch = handed tr i + 1
  proms : 2 ≤ k.watch.promises.length
  settled : ∀ g : Nat, 1 ≤ g → g < k.watch.promises.length → k.watch.promises[g]? ≠ some .pending →
    Balanced tr i ∨ k.phase.active = false
  calls : ∀ g ∈ k.watch.calls, 1 ≤ g ∧ g < k.watch.promises.length
  call : ∀ call, k.phase = .running call → call < k.watch.calls.length

theorem settle_length (ps : List Unused.Promise) (to : Unused.Promise) :
    (Unused.settle ps to).length = ps.length := by
  unfold Unused.settle
  simp

/-- The events that do not matter for the subscription. -/
theorem CountOk.keep {tr : Trace} {i : Nat} {k : Sub} (h : CountOk tr i k) {op : Op} {o : Out}
    (h1 : handed (tr ++ [(op, o)]) i = handed tr i) (h2 : closes (tr ++ [(op, o)]) i = closes tr i) :
    CountOk (tr ++ [(op, o)]) i k :=
  ⟨h.two, by rw [h1]; exact h.given, by rw [h1, h2]; exact h.count, h.proms,
    fun g a b c => (h.settled g a b c).imp_left fun x => x.mono _, h.calls, h.call⟩

/-- Another consumer. -/
theorem CountOk.consume {tr : Trace} {i : Nat} {k : Sub} (h : CountOk tr i k) {op : Op} {o : Out}
    (h1 : handed (tr ++ [(op, o)]) i = handed tr i + 1)
    (h2 : closes (tr ++ [(op, o)]) i = closes tr i) :
    CountOk (tr ++ [(op, o)]) i { k with watch := upd k.watch .consume } := by
  have hc : cachedN (upd k.watch .consume) = cachedN k.watch := by
    unfold cachedN
    rw [handles_consume, List.getElem?_append_left (by have := h.two; omega)]
  have hcons : (upd k.watch .consume).consumers = k.watch.consumers + 1 := rfl
  have hlen : (upd k.watch .consume).promises =
      if k.watch.consumers = 0 then k.watch.promises ++ [.pending] else k.watch.promises := rfl
  have hle : k.watch.promises.length ≤ (upd k.watch .consume).promises.length := by
    rw [hlen]
    split <;> simp
  refine ⟨?_, by omega, ?_, ?_, ?_, ?_, ?_⟩
  · dsimp only
    rw [handles_consume, List.length_append]
    have := h.two
    omega
  · dsimp only
    rw [hc, hcons, h1, h2]
    have := h.count
    omega
  · dsimp only
    have := h.proms
    omega
  · intro g hg hlt hne
    dsimp only at hlt hne ⊢
    by_cases hl : g < k.watch.promises.length
    · refine (h.settled g hg hl ?_).imp_left fun x => x.mono _
      rw [hlen] at hne
      split at hne
      · rwa [List.getElem?_append_left hl] at hne
      · exact hne
    · rw [hlen] at hlt hne
      split at hlt
      · rename_i hz
        rw [if_pos hz] at hne
        rw [List.length_append, List.length_singleton] at hlt
        have : g = k.watch.promises.length := by omega
        subst this
        rw [List.getElem?_concat_length] at hne
        exact absurd rfl hne
      · exact absurd hlt hl
  · intro g hg
    obtain ⟨a, b⟩ := h.calls g hg
    exact ⟨a, Nat.lt_of_lt_of_le b hle⟩
  · exact h.call

theorem settle_get (ps : List Unused.Promise) (to : Unused.Promise) (g : Nat)
    (hg : g ≠ ps.length - 1) : (Unused.settle ps to)[g]? = ps[g]? := by
  unfold Unused.settle
  rw [List.getElem?_modify]
  have : ¬ ps.length - 1 = g := fun e => hg e.symm
  cases ps[g]? <;> simp [this]

/-- A consumer is closed. -/
theorem CountOk.close {tr : Trace} {i : Nat} {k : Sub} (h : CountOk tr i k) {op : Op} {o : Out}
    {c : Nat} {ph : Phase} {st : Status} (hc : c < k.watch.handles.length)
    (hcount : k.watch.consumers - 1 + closes (tr ++ [(op, o)]) i +
      cachedN (upd k.watch (.closeHandle c)) = handed (tr ++ [(op, o)]) i + 1)
    (h1 : handed (tr ++ [(op, o)]) i = handed tr i)
    (hph : ph.active = true → k.phase.active = true)
    (hcall : ∀ call, ph = .running call → call < k.watch.calls.length) :
    CountOk (tr ++ [(op, o)]) i
      { k with watch := upd k.watch (.closeHandle c), phase := ph, status := st } := by
  have e : upd k.watch (.closeHandle c) = { k.watch with
      consumers := k.watch.consumers - 1
      promises := if k.watch.consumers - 1 = 0 then Unused.settle k.watch.promises .resolved
        else k.watch.promises
      handles := k.watch.handles.set c true } := by
    unfold upd
    rw [Unused.step, if_pos hc]
  have hlen : (upd k.watch (.closeHandle c)).promises.length = k.watch.promises.length := by
    rw [e]
    dsimp only
    split
    · rw [settle_length]
    · rfl
  have hcn : cachedN (upd k.watch (.closeHandle c)) ≤ 1 := by
    unfold cachedN
    split <;> omega
  have hg := h.given
  refine ⟨?_, by omega, ?_, ?_, ?_, ?_, ?_⟩
  · dsimp only
    rw [e]
    dsimp only
    rw [List.length_set]
    exact h.two
  · dsimp only
    have : (upd k.watch (.closeHandle c)).consumers = k.watch.consumers - 1 := by rw [e]
    rw [this]
    exact hcount
  · dsimp only
    rw [hlen]
    exact h.proms
  · intro g hg1 hlt hne
    dsimp only at hlt hne ⊢
    rw [hlen] at hlt
    cases hact : ph.active with
    | false => exact .inr rfl
    | true =>
      left
      have hold : k.watch.promises[g]? ≠ some .pending → Balanced (tr ++ [(op, o)]) i := by
        intro hne
        rcases h.settled g hg1 hlt hne with hb | hb
        · exact hb.mono _
        · rw [hph hact] at hb
          cases hb
      by_cases hz : k.watch.consumers - 1 = 0
      · refine ⟨tr ++ [(op, o)], [], by simp, by omega, ?_⟩
        omega
      · rw [e] at hne
        dsimp only at hne
        rw [if_neg hz] at hne
        exact hold hne
  · intro g hg
    rw [e] at hg
    dsimp only at hg ⊢
    rw [hlen]
    exact h.calls g hg
  · intro call hcl
    rw [e]
    exact hcall call hcl

/-- The subscription ends. -/
theorem CountOk.finish {tr : Trace} {i : Nat} {k : Sub} (h : CountOk tr i k) {op : Op} {o : Out}
    {a : Bool} {st : Status} (h1 : handed (tr ++ [(op, o)]) i = handed tr i)
    (h2 : closes (tr ++ [(op, o)]) i = closes tr i) :
    CountOk (tr ++ [(op, o)]) i { k with
      watch := upd k.watch (if a then .abort else .close), status := st, phase := .over false } := by
  have hw : ∃ to, upd k.watch (if a then .abort else .close) =
      { k.watch with promises := Unused.settle k.watch.promises to } := by
    cases a
    · exact ⟨.resolved, rfl⟩
    · exact ⟨.rejected, rfl⟩
  obtain ⟨to, e⟩ := hw
  rw [e]
  refine ⟨h.two, by rw [h1]; exact h.given, by rw [h1, h2]; exact h.count, ?_, ?_, ?_, ?_⟩
  · dsimp only
    rw [settle_length]
    exact h.proms
  · intro g _ _ _
    exact .inr rfl
  · intro g hg
    dsimp only at hg ⊢
    rw [settle_length]
    exact h.calls g hg
  · intro call hc
    cases hc

/-- The entries of a cache. -/
structure EntryOk (s : State) (b : Nat) (r : Br) : Prop where
  entry : ∀ e ∈ r.tracks, ∃ k, s.subs[e.2]? = some k ∧ k.broadcast = b ∧ k.name = e.1 ∧
    k.watch.handles[1]? = some false
  nodup : (r.tracks.map (·.2)).Nodup

structure CInv (tr : Trace) (s : State) : Prop where
  sub : ∀ (i : Nat) k, s.subs[i]? = some k → CountOk tr i k
  none : ∀ i, s.subs.length ≤ i → handed tr i = 0 ∧ closes tr i = 0
  br : ∀ (b : Nat) r, s.brs[b]? = some r → EntryOk s b r

theorem get_mem {m : List (Str × Nat)} {n : Str} {i : Nat} (h : get m n = some i) : (n, i) ∈ m := by
  unfold get at h
  obtain ⟨⟨a, b⟩, h1, h2⟩ := Option.map_eq_some_iff.mp h
  have h3 := List.find?_some h1
  simp only [decide_eq_true_eq] at h3
  simp only at h2
  subst h2
  subst h3
  exact List.mem_of_find?_eq_some h1

theorem cinv_same {tr : Trace} {s : State} (h : CInv tr s) {op : Op} {o : Out}
    (h1 : ∀ i, handed (tr ++ [(op, o)]) i = handed tr i)
    (h2 : ∀ i, closes (tr ++ [(op, o)]) i = closes tr i) : CInv (tr ++ [(op, o)]) s :=
  ⟨fun i k hk => (h.sub i k hk).keep (h1 i) (h2 i),
    fun i hi => by rw [h1, h2]; exact h.none i hi, h.br⟩

/-- The tracks of the broadcasts stay as they are. -/
theorem cinv_brs {tr : Trace} {s : State} (h : CInv tr s) {b : Nat} {r r' : Br} {op : Op} {o : Out}
    (hr : s.brs[b]? = some r) (ht : r'.tracks = r.tracks)
    (h1 : ∀ i, handed (tr ++ [(op, o)]) i = handed tr i)
    (h2 : ∀ i, closes (tr ++ [(op, o)]) i = closes tr i) :
    CInv (tr ++ [(op, o)]) { s with brs := s.brs.set b r' } := by
  have c := cinv_same h h1 h2
  refine ⟨c.sub, c.none, ?_⟩
  intro b' q hq
  dsimp only at hq
  by_cases hb : b' = b
  · subst hb
    rw [List.getElem?_set_self (List.getElem?_eq_some_iff.mp hr).1] at hq
    cases hq
    have e := h.br b' r hr
    exact ⟨by rw [ht]; exact e.entry, by rw [ht]; exact e.nodup⟩
  · rw [List.getElem?_set_ne (fun e => hb e.symm)] at hq
    exact ⟨(h.br b' q hq).entry, (h.br b' q hq).nodup⟩

/-- A step on one subscription. -/
theorem cinv_sub {tr : Trace} {s : State} (h : CInv tr s) {i : Nat} {k k' : Sub} {op : Op} {o : Out}
    (hk : s.subs[i]? = some k) (hb : k'.broadcast = k.broadcast) (hn : k'.name = k.name)
    (hcached : k.watch.handles[1]? = some false → k'.watch.handles[1]? = some false)
    (h1 : ∀ j, j ≠ i → handed (tr ++ [(op, o)]) j = handed tr j)
    (h2 : ∀ j, j ≠ i → closes (tr ++ [(op, o)]) j = closes tr j)
    (hok : CountOk (tr ++ [(op, o)]) i k') :
    CInv (tr ++ [(op, o)]) { s with subs := s.subs.set i k' } := by
  have hlt := (List.getElem?_eq_some_iff.mp hk).1
  refine ⟨?_, ?_, ?_⟩
  · intro j x hx
    dsimp only at hx
    by_cases hj : j = i
    · subst hj
      rw [List.getElem?_set_self hlt] at hx
      cases hx
      exact hok
    · rw [List.getElem?_set_ne (fun e => hj e.symm)] at hx
      exact (h.sub j x hx).keep (h1 j hj) (h2 j hj)
  · intro j hj
    dsimp only at hj
    rw [List.length_set] at hj
    have hji : j ≠ i := by omega
    rw [h1 j hji, h2 j hji]
    exact h.none j hj
  · intro b r hr
    have e := h.br b r hr
    refine ⟨fun x hx => ?_, e.nodup⟩
    obtain ⟨y, hy, y1, y2, y3⟩ := e.entry x hx
    dsimp only
    by_cases hj : x.2 = i
    · rw [hj] at hy ⊢
      rw [hk] at hy
      cases hy
      exact ⟨k', List.getElem?_set_self hlt, by rw [hb, y1], by rw [hn, y2], hcached y3⟩
    · exact ⟨y, by rw [List.getElem?_set_ne (fun e => hj e.symm)]; exact hy, y1, y2, y3⟩

theorem closeCached_get (subs : List Sub) (i j : Nat) : (closeCached subs i)[j]? =
    if i = j then (subs[j]?).map fun k => { k with watch := upd k.watch (.closeHandle 1) }
    else subs[j]? := by
  unfold closeCached
  rw [List.getElem?_modify]
  by_cases h : i = j <;> simp [h]

/-- The cached consumer of a subscription is closed. -/
theorem CountOk.cached {tr : Trace} {i : Nat} {k : Sub} (h : CountOk tr i k)
    (hc : k.watch.handles[1]? = some false) {op : Op} {o : Out}
    (h1 : handed (tr ++ [(op, o)]) i = handed tr i)
    (h2 : closes (tr ++ [(op, o)]) i = closes tr i) :
    CountOk (tr ++ [(op, o)]) i { k with watch := upd k.watch (.closeHandle 1) } := by
  have hlt : 1 < k.watch.handles.length := h.two
  refine CountOk.close h hlt ?_ h1 id h.call
  have e1 : cachedN k.watch = 0 := by
    unfold cachedN
    rw [hc]
    rfl
  have e2 : cachedN (upd k.watch (.closeHandle 1)) = 1 := by
    unfold cachedN
    rw [handles_close _ hlt, List.getElem?_set_self hlt]
    rfl
  have := h.count
  rw [h1, h2, e2]
  rw [e1] at this
  omega

theorem foldl_get (l : List (Str × Nat)) (hn : (l.map (·.2)).Nodup) (subs : List Sub) (j : Nat) :
    (l.foldl (fun subs e => closeCached subs e.2) subs)[j]? =
      if j ∈ l.map (·.2) then (subs[j]?).map fun k => { k with watch := upd k.watch (.closeHandle 1) }
      else subs[j]? := by
  induction l generalizing subs with
  | nil => simp
  | cons x l ih =>
    rw [List.map_cons, List.nodup_cons] at hn
    rw [List.foldl_cons, ih hn.2, closeCached_get]
    by_cases hx : x.2 = j
    · subst hx
      rw [if_neg hn.1, if_pos rfl, if_pos (by simp)]
    · have hne : ¬ j = x.2 := fun e => hx e.symm
      rw [if_neg hx]
      by_cases hm : j ∈ l.map (·.2)
      · rw [if_pos hm, if_pos (by rw [List.map_cons]; exact List.mem_cons_of_mem _ hm)]
      · rw [if_neg hm, if_neg (by rw [List.map_cons, List.mem_cons]; exact fun h => h.elim hne hm)]

theorem foldl_length (l : List (Str × Nat)) (subs : List Sub) :
    (l.foldl (fun subs e => closeCached subs e.2) subs).length = subs.length := by
  induction l generalizing subs with
  | nil => rfl
  | cons x l ih =>
    rw [List.foldl_cons, ih]
    simp [closeCached]

theorem delete_mem {m : List (Str × Nat)} {n : Str} {e : Str × Nat} :
    e ∈ delete m n ↔ e ∈ m ∧ e.1 ≠ n := by
  unfold delete
  simp

/-- The entry of a track is removed, if there is one. -/
theorem cinv_remove {tr : Trace} {s : State} (h : CInv tr s) (b : Nat) (name : Str) {op : Op} {o : Out}
    (h1 : ∀ i, handed (tr ++ [(op, o)]) i = handed tr i)
    (h2 : ∀ i, closes (tr ++ [(op, o)]) i = closes tr i) :
    CInv (tr ++ [(op, o)]) (removeTrack s b name) := by
  unfold removeTrack
  cases hr : s.brs[b]? with
  | none => exact cinv_same h h1 h2
  | some r =>
    dsimp only
    split
    · exact cinv_same h h1 h2
    · have hblt := (List.getElem?_eq_some_iff.mp hr).1
      have er := h.br b r hr
      -- what is left of the entries
      have left : ∀ (b' : Nat) q, (s.brs.set b { r with tracks := delete r.tracks name })[b']? = some q →
          ∃ q', s.brs[b']? = some q' ∧ (∀ e ∈ q.tracks, e ∈ q'.tracks ∧ (b' = b → e.1 ≠ name)) ∧
            (q.tracks.map (·.2)).Nodup := by
        intro b' q hq
        by_cases hb : b' = b
        · subst hb
          rw [List.getElem?_set_self hblt] at hq
          cases hq
          refine ⟨r, hr, fun e he => ?_, ?_⟩
          · obtain ⟨a, c⟩ := delete_mem.mp he
            exact ⟨a, fun _ => c⟩
          · refine List.Nodup.sublist ?_ er.nodup
            exact List.Sublist.map _ List.filter_sublist
        · rw [List.getElem?_set_ne (fun e => hb e.symm)] at hq
          exact ⟨q, hq, fun e he => ⟨he, fun e' => absurd e' hb⟩, (h.br b' q hq).nodup⟩
      cases hg : get r.tracks name with
      | none =>
        dsimp only
        have c := cinv_same h h1 h2
        refine ⟨c.sub, c.none, fun b' q hq => ?_⟩
        obtain ⟨q', hq', hm, hn⟩ := left b' q hq
        exact ⟨fun e he => (h.br b' q' hq').entry e (hm e he).1, hn⟩
      | some i =>
        dsimp only
        obtain ⟨k, hk, k1, k2, k3⟩ := er.entry _ (get_mem hg)
        dsimp only at hk k2
        refine ⟨?_, ?_, ?_⟩
        · intro j x hx
          dsimp only at hx
          rw [closeCached_get] at hx
          by_cases hj : i = j
          · subst hj
            rw [if_pos rfl, hk] at hx
            cases hx
            exact CountOk.cached (h.sub i k hk) k3 (h1 i) (h2 i)
          · rw [if_neg hj] at hx
            exact (h.sub j x hx).keep (h1 j) (h2 j)
        · intro j hj
          have : (closeCached s.subs i).length = s.subs.length := by simp [closeCached]
          dsimp only at hj
          rw [this] at hj
          rw [h1, h2]
          exact h.none j hj
        · intro b' q hq
          obtain ⟨q', hq', hm, hn⟩ := left b' q hq
          refine ⟨fun e he => ?_, hn⟩
          obtain ⟨y, hy, y1, y2, y3⟩ := (h.br b' q' hq').entry e (hm e he).1
          refine ⟨y, ?_, y1, y2, y3⟩
          dsimp only
          rw [closeCached_get, if_neg, hy]
          intro ei
          rw [← ei, hk] at hy
          cases hy
          exact (hm e he).2 (by rw [← y1, k1]) (by rw [← y2, k2])

theorem countOk_phase {tr : Trace} {i : Nat} {k : Sub} (h : CountOk tr i k) (ph : Phase)
    (ha : ph.active = false) : CountOk tr i { k with phase := ph } :=
  ⟨h.two, h.given, h.count, h.proms, fun _ _ _ _ => .inr ha, h.calls, fun call hc => by
    have hc' : ph = .running call := hc
    subst hc'
    cases ha⟩

/-- Only the phase of a subscription changes. -/
theorem cinv_phase {tr : Trace} {s : State} (h : CInv tr s) {i : Nat} {k : Sub} (ph : Phase)
    (hk : s.subs[i]? = some k) (ha : ph.active = false) :
    CInv tr { s with subs := s.subs.set i { k with phase := ph } } := by
  have hlt := (List.getElem?_eq_some_iff.mp hk).1
  refine ⟨?_, ?_, ?_⟩
  · intro j x hx
    dsimp only at hx
    by_cases hj : j = i
    · subst hj
      rw [List.getElem?_set_self hlt] at hx
      cases hx
      exact countOk_phase (h.sub j k hk) ph ha
    · rw [List.getElem?_set_ne (fun e => hj e.symm)] at hx
      exact h.sub j x hx
  · intro j hj
    dsimp only at hj
    rw [List.length_set] at hj
    exact h.none j hj
  · intro b r hr
    have e := h.br b r hr
    refine ⟨fun x hx => ?_, e.nodup⟩
    obtain ⟨y, hy, y1, y2, y3⟩ := e.entry x hx
    dsimp only
    by_cases hj : x.2 = i
    · rw [hj] at hy ⊢
      rw [hk] at hy
      cases hy
      exact ⟨_, List.getElem?_set_self hlt, y1, y2, y3⟩
    · exact ⟨y, by rw [List.getElem?_set_ne (fun e => hj e.symm)]; exact hy, y1, y2, y3⟩

theorem cinv_step {tr : Trace} {s : State} (h : CInv tr s) (op : Op) :
    CInv (tr ++ [(op, (step s op).1)]) (step s op).2 := by
  have hand : ∀ (op : Op) (o : Out), (∀ j c, o ≠ .subscribed j c) → (∀ j c, o ≠ .track j c) →
      ∀ i, handed (tr ++ [(op, o)]) i = handed tr i := by
    intro op o a b i
    rw [handed_snoc]
    cases o <;> first | rfl | exact absurd rfl (a _ _) | exact absurd rfl (b _ _)
  have clos : ∀ (op : Op) (o : Out), (∀ j c, op = .closeTrack j c → o ≠ .ok) →
      ∀ i, closes (tr ++ [(op, o)]) i = closes tr i := by
    intro op o a i
    rw [closes_snoc]
    cases op <;> first | rfl | skip
    cases o <;> first | rfl | exact absurd rfl (a _ _ rfl)
  have inv : ∀ op : Op, CInv (tr ++ [(op, .invalid)]) s := fun op =>
    cinv_same h (hand _ _ (by simp) (by simp)) (clos _ _ (by simp))
  -- one more consumer
  have add : ∀ (op : Op) (i : Nat) (k : Sub) (c : Nat), s.subs[i]? = some k →
      (∀ j c, op ≠ .closeTrack j c) →
      CInv (tr ++ [(op, .track i c)])
        { s with subs := s.subs.set i { k with watch := upd k.watch .consume } } := by
    intro op i k c hk hop
    have o := h.sub i k hk
    refine cinv_sub h hk rfl rfl ?_ ?_ ?_ ?_
    · intro hc
      dsimp only
      rw [handles_consume, List.getElem?_append_left (by have := o.two; omega)]
      exact hc
    · intro j hj
      have : ¬ i = j := fun e => hj e.symm
      rw [handed_snoc]
      simp [this]
    · intro j _
      exact clos _ _ (by simp) j
    · refine CountOk.consume o ?_ (clos _ _ (by simp) i)
      rw [handed_snoc]
      simp
  cases op with
  | consume path =>
    rw [step]
    split
    · split
      · rename_i r hr
        exact cinv_brs h hr rfl (hand _ _ (by simp) (by simp)) (clos _ _ (by simp))
      · exact inv _
    · have c := cinv_same h (op := .consume path) (o := .broadcast s.brs.length 0)
        (hand _ _ (by simp) (by simp)) (clos _ _ (by simp))
      refine ⟨c.sub, c.none, ?_⟩
      intro b q hq
      dsimp only at hq
      rw [List.getElem?_append] at hq
      split at hq
      · exact ⟨(h.br b q hq).entry, (h.br b q hq).nodup⟩
      · rw [List.getElem?_singleton] at hq
        split at hq
        · cases hq
          exact ⟨fun e he => (by cases he), List.nodup_nil⟩
        · cases hq
  | closeBroadcast b c =>
    rw [step]
    split
    · rename_i r hr
      split
      · exact cinv_brs h hr rfl (hand _ _ (by simp) (by simp)) (clos _ _ (by simp))
      · exact inv _
    · exact inv _
  | subscribe b name =>
    rw [step]
    split
    · rename_i r hr
      split
      · rename_i i hi
        split
        · rename_i k hk
          exact add _ i k _ hk (by simp)
        · exact inv _
      · rename_i hno
        split
        · exact cinv_same h (hand _ _ (by simp) (by simp)) (clos _ _ (by simp))
        · have hblt := (List.getElem?_eq_some_iff.mp hr).1
          have hh : ∀ j, handed (tr ++ [(.subscribe b name, .subscribed s.subs.length 0)]) j =
              handed tr j + if s.subs.length = j then 1 else 0 := by
            intro j
            rw [handed_snoc]
          have hcl := clos (.subscribe b name) (.subscribed s.subs.length 0) (by simp)
          have fresh0 := h.none s.subs.length (Nat.le_refl _)
          have old : ∀ (b' : Nat) q, s.brs[b']? = some q → ∀ e ∈ q.tracks,
              ∃ k, (s.subs ++ [(⟨b, name, Subscriber.fresh, .live, .asked⟩ : Sub)])[e.2]? = some k ∧
                k.broadcast = b' ∧ k.name = e.1 ∧ k.watch.handles[1]? = some false := by
            intro b' q hq e he
            obtain ⟨y, hy, y'⟩ := (h.br b' q hq).entry e he
            exact ⟨y, by
              rw [List.getElem?_append_left (List.getElem?_eq_some_iff.mp hy).1]
              exact hy, y'⟩
          refine ⟨?_, ?_, ?_⟩
          · intro j x hx
            dsimp only at hx
            rw [List.getElem?_append] at hx
            split at hx
            · rename_i hlt
              refine (h.sub j x hx).keep ?_ (hcl j)
              rw [hh, if_neg (by omega)]
              rfl
            · rw [List.getElem?_singleton] at hx
              split at hx
              · have hj : j = s.subs.length := by omega
                subst hj
                cases hx
                have c1 : handed (tr ++ [(.subscribe b name, .subscribed s.subs.length 0)])
                    s.subs.length = 1 := by rw [hh, if_pos rfl, fresh0.1]
                have c2 : closes (tr ++ [(.subscribe b name, .subscribed s.subs.length 0)])
                    s.subs.length = 0 := by rw [hcl, fresh0.2]
                refine ⟨Nat.le_refl _, by rw [c1]; exact Nat.one_pos, ?_, Nat.le_refl _, ?_, ?_, ?_⟩
                · rw [c1, c2]
                  rfl
                · intro g hg hlt hne
                  dsimp only at hlt hne
                  have : Subscriber.fresh.promises = [.resolved, .pending] := rfl
                  rw [this] at hlt hne
                  have : g = 1 := by
                    simp only [List.length_cons, List.length_nil] at hlt
                    omega
                  subst this
                  exact absurd rfl hne
                · intro g hg
                  cases hg
                · intro call hc
                  cases hc
              · cases hx
          · intro j hj
            dsimp only at hj
            rw [List.length_append, List.length_singleton] at hj
            rw [hh, if_neg (by omega), hcl]
            exact h.none j (by omega)
          · intro b' q hq
            dsimp only at hq
            by_cases hb : b' = b
            · subst hb
              rw [List.getElem?_set_self hblt] at hq
              cases hq
              refine ⟨?_, ?_⟩
              · intro e he
                unfold put at he
                rcases List.mem_cons.mp he with rfl | he
                · exact ⟨_, List.getElem?_concat_length, rfl, rfl, rfl⟩
                · exact old b' r hr e (delete_mem.mp he).1
              · unfold put
                rw [List.map_cons, List.nodup_cons]
                constructor
                · intro hm
                  obtain ⟨e, he, he'⟩ := List.mem_map.mp hm
                  obtain ⟨y, hy, -⟩ := (h.br b' r hr).entry e (delete_mem.mp he).1
                  have := (List.getElem?_eq_some_iff.mp hy).1
                  omega
                · exact List.Nodup.sublist (List.Sublist.map _ List.filter_sublist) (h.br b' r hr).nodup
            · rw [List.getElem?_set_ne (fun e => hb e.symm)] at hq
              exact ⟨old b' q hq, (h.br b' q hq).nodup⟩
    · exact inv _
  | clone i =>
    rw [step]
    split
    · rename_i k hk
      exact add _ i k _ hk (by simp)
    · exact inv _
  | closeTrack i c =>
    rw [step]
    split
    · rename_i k hk
      split
      · rename_i hc
        have o := h.sub i k hk
        have hh := hand (.closeTrack i c) .ok (by simp) (by simp)
        have hcached : cachedN (upd k.watch (.closeHandle c)) = cachedN k.watch := by
          unfold cachedN
          rw [handles_close _ hc.1, List.getElem?_set_ne hc.2]
        refine cinv_sub h hk rfl rfl ?_ (fun j _ => hh j) ?_ ?_
        · intro hx
          dsimp only
          rw [handles_close _ hc.1, List.getElem?_set_ne hc.2]
          exact hx
        · intro j hj
          have : ¬ i = j := fun e => hj e.symm
          rw [closes_snoc]
          simp [this]
        · refine CountOk.close o hc.1 ?_ (hh i) id o.call
          have e : closes (tr ++ [(.closeTrack i c, .ok)]) i = closes tr i + 1 := by
            rw [closes_snoc]
            simp
          have := o.count
          rw [hcached, hh, e]
          omega
      · exact inv _
    · exact inv _
  | answer i =>
    rw [step]
    split
    · rename_i k hk
      split
      · have o := h.sub i k hk
        have hh := hand (.answer i) .ok (by simp) (by simp)
        have hcl := clos (.answer i) .ok (by simp)
        refine cinv_sub h hk rfl rfl (fun hx => hx) (fun j _ => hh j) (fun j _ => hcl j) ?_
        rename_i ha
        refine ⟨o.two, by rw [hh]; exact o.given, by rw [hh, hcl]; exact o.count, o.proms, ?_, ?_, ?_⟩
        · intro g hg hlt hne
          rcases o.settled g hg hlt hne with hb | hb
          · exact .inl (hb.mono _)
          · rw [ha] at hb
            cases hb
        · intro g hg
          dsimp only [upd, Unused.step] at hg ⊢
          rcases List.mem_append.mp hg with hg | hg
          · exact o.calls g hg
          · rw [List.mem_singleton] at hg
            have := o.proms
            omega
        · intro call hc
          simp only [Phase.running.injEq] at hc
          subst hc
          simp [upd, Unused.step]
      · exact inv _
    · exact inv _
  | peerEnd i failed =>
    have fin : ∀ k, s.subs[i]? = some k →
        CInv (tr ++ [(.peerEnd i failed, .ok)]) (finish s i k failed) := by
      intro k hk
      have hh := hand (.peerEnd i failed) .ok (by simp) (by simp)
      have hcl := clos (.peerEnd i failed) .ok (by simp)
      refine cinv_sub h hk rfl rfl ?_ (fun j _ => hh j) (fun j _ => hcl j)
        (CountOk.finish (h.sub i k hk) (hh i) (hcl i))
      intro hx
      cases failed <;> exact hx
    rw [step]
    split
    · rename_i k hk
      split
      · exact fin k hk
      · exact fin k hk
      · exact inv _
    · exact inv _
  | openFails i =>
    rw [step]
    split
    · rename_i k hk
      split
      · exact cinv_same (cinv_phase h (.lost false) hk rfl) (hand _ _ (by simp) (by simp))
          (clos _ _ (by simp))
      · exact inv _
    · exact inv _
  | cleanup i =>
    rw [step]
    split
    · rename_i k hk
      split
      · exact cinv_remove (cinv_phase h (.over true) hk rfl) _ _ (hand _ _ (by simp) (by simp))
          (clos _ _ (by simp))
      · exact cinv_remove (cinv_phase h (.lost true) hk rfl) _ _ (hand _ _ (by simp) (by simp))
          (clos _ _ (by simp))
      · exact inv _
    · exact inv _
  | unsubscribe i =>
    rw [step]
    split
    · rename_i k hk
      split
      · split
        · have hh := hand (.unsubscribe i) .unsubscribed (by simp) (by simp)
          have hcl := clos (.unsubscribe i) .unsubscribed (by simp)
          exact cinv_sub h hk rfl rfl (fun hx => hx) (fun j _ => hh j) (fun j _ => hcl j)
            (CountOk.finish (h.sub i k hk) (a := false) (hh i) (hcl i))
        · exact inv _
      · exact inv _
    · exact inv _
  | dropBroadcast b =>
    rw [step]
    split
    · rename_i r hr
      split
      · have hblt := (List.getElem?_eq_some_iff.mp hr).1
        have er := h.br b r hr
        have hh := hand (.dropBroadcast b) .ok (by simp) (by simp)
        have hcl := clos (.dropBroadcast b) .ok (by simp)
        refine ⟨?_, ?_, ?_⟩
        · intro j x hx
          dsimp only at hx
          rw [foldl_get _ er.nodup] at hx
          split at hx
          · rename_i hm
            obtain ⟨e, he, rfl⟩ := List.mem_map.mp hm
            obtain ⟨k, hk, k1, k2, k3⟩ := er.entry e he
            rw [hk] at hx
            cases hx
            exact CountOk.cached (h.sub _ k hk) k3 (hh _) (hcl _)
          · exact (h.sub j x hx).keep (hh j) (hcl j)
        · intro j hj
          dsimp only at hj
          rw [foldl_length] at hj
          rw [hh, hcl]
          exact h.none j hj
        · intro b' q hq
          dsimp only at hq
          by_cases hb : b' = b
          · subst hb
            rw [List.getElem?_set_self hblt] at hq
            cases hq
            exact ⟨fun e he => (by cases he), List.nodup_nil⟩
          · rw [List.getElem?_set_ne (fun e => hb e.symm)] at hq
            have eq := h.br b' q hq
            refine ⟨fun e he => ?_, eq.nodup⟩
            obtain ⟨y, hy, y1, y2, y3⟩ := eq.entry e he
            refine ⟨y, ?_, y1, y2, y3⟩
            dsimp only
            rw [foldl_get _ er.nodup, if_neg, hy]
            intro hm
            obtain ⟨e', he', hee⟩ := List.mem_map.mp hm
            obtain ⟨z, hz, z1, -⟩ := er.entry e' he'
            rw [hee, hy] at hz
            cases hz
            exact hb (by rw [← y1, z1])
      · exact inv _
    · exact inv _
  | group i =>
    rw [step]
    split
    · split
      · exact cinv_same h (hand _ _ (by simp) (by simp)) (clos _ _ (by simp))
      · exact cinv_same h (hand _ _ (by simp) (by simp)) (clos _ _ (by simp))
    · exact cinv_same h (hand _ _ (by simp) (by simp)) (clos _ _ (by simp))
  | status i =>
    rw [step]
    split
    · exact cinv_same h (hand _ _ (by simp) (by simp)) (clos _ _ (by simp))
    · exact inv _

theorem cinv_reach {tr : Trace} {s : State} (h : machine.Reach tr s) : CInv tr s :=
  Machine.Reach.induct (M := machine) (P := CInv)
    ⟨fun i k hk => by simp [init] at hk, fun i _ => ⟨rfl, rfl⟩, fun b r hr => by simp [init] at hr⟩
    (fun _ _ op _ i => cinv_step i op) h

end Verif.Js.Subscriber
