import Verif.Hang.ImportSpec

set_option autoImplicit false

namespace Verif.Hang.Import

open Verif

section Split

variable {Atom Err σ : Type}

theorem parseLoop_fuel (P : Params Atom Err σ) (h : Stable P.decode) :
    ∀ (f g : Nat) (s : σ) (d : Bytes), d.length < f → d.length < g → parseLoop P f s d = parseLoop P g s d := by
  intro f
  induction f with
  | zero => intro g s d hf; omega
  | succ f ih =>
    intro g s d hf hg
    cases g with
    | zero => omega
    | succ g =>
      simp only [parseLoop]
      split
      · rfl
      · rfl
      · rename_i a n hd
        obtain ⟨h0, h1, -⟩ := h.atom _ _ _ hd
        split
        · rfl
        · exact ih _ _ _ (by rw [List.length_drop]; omega) (by rw [List.length_drop]; omega)

theorem parseLoop_ok (P : Params Atom Err σ) (h : Stable P.decode) :
    ∀ (f g : Nat) (s s' : σ) (d r c : Bytes), d.length < f → (d ++ c).length < g →
      parseLoop P f s d = (none, r, s') →
      parseLoop P g s (d ++ c) = parseLoop P (r.length + c.length + 1) s' (r ++ c) := by
  intro f
  induction f with
  | zero => intro g s s' d r c hf; omega
  | succ f ih =>
    intro g s s' d r c hf hg hp
    simp only [parseLoop] at hp
    split at hp
    · cases hp
    · cases hp
      exact parseLoop_fuel P h _ _ _ _ hg (by simp)
    · rename_i a n hd
      obtain ⟨h0, h1, h2⟩ := h.atom _ _ _ hd
      split at hp
      · cases hp
      · rename_i t hpr
        cases g with
        | zero => omega
        | succ g =>
          have hdr : (d ++ c).drop n = d.drop n ++ c := by rw [List.drop_append_of_le_length h1]
          rw [show parseLoop P (g + 1) s (d ++ c) = parseLoop P g t (d.drop n ++ c) by
            simp only [parseLoop, h2, hpr, hdr]]
          refine ih g t s' (d.drop n) r c (by rw [List.length_drop]; omega) ?_ hp
          simp only [List.length_append, List.length_drop] at hg ⊢; omega

theorem parseLoop_err (P : Params Atom Err σ) (h : Stable P.decode) :
    ∀ (f g : Nat) (s s' : σ) (d r c : Bytes) (e : Err), d.length < f → (d ++ c).length < g →
      parseLoop P f s d = (some e, r, s') → parseLoop P g s (d ++ c) = (some e, r ++ c, s') := by
  intro f
  induction f with
  | zero => intro g s s' d r c e hf; omega
  | succ f ih =>
    intro g s s' d r c e hf hg hp
    cases g with
    | zero => omega
    | succ g =>
      simp only [parseLoop] at hp
      split at hp
      · rename_i e' hd
        cases hp
        simp only [parseLoop, h.invalid _ _ hd]
      · cases hp
      · rename_i a n hd
        obtain ⟨h0, h1, h2⟩ := h.atom _ _ _ hd
        have hdr : (d ++ c).drop n = d.drop n ++ c := by rw [List.drop_append_of_le_length h1]
        split at hp
        · rename_i e' t hpr
          cases hp
          simp only [parseLoop, h2, hpr]
        · rename_i t hpr
          rw [show parseLoop P (g + 1) s (d ++ c) = parseLoop P g t (d.drop n ++ c) by
            simp only [parseLoop, h2, hpr, hdr]]
          refine ih g t s' (d.drop n) r c e (by rw [List.length_drop]; omega) ?_ hp
          simp only [List.length_append, List.length_drop] at hg ⊢; omega

theorem parseInner_ok (P : Params Atom Err σ) (h : Stable P.decode) {s s' : σ} {d r : Bytes} (c : Bytes)
    (hp : parseInner P s d = (none, r, s')) : parseInner P s (d ++ c) = parseInner P s' (r ++ c) := by
  unfold parseInner at hp ⊢
  rw [parseLoop_ok P h _ _ s s' d r c (Nat.lt_succ_self _) (Nat.lt_succ_self _) hp, List.length_append]

theorem parseInner_err (P : Params Atom Err σ) (h : Stable P.decode) {s s' : σ} {d r : Bytes} {e : Err} (c : Bytes)
    (hp : parseInner P s d = (some e, r, s')) : parseInner P s (d ++ c) = (some e, r ++ c, s') :=
  parseLoop_err P h _ _ s s' d r c e (Nat.lt_succ_self _) (Nat.lt_succ_self _) hp

theorem feed_flatten (P : Params Atom Err σ) (h : Stable P.decode) :
    ∀ (ds : List Bytes) (d : Bytes) (x : Bytes × σ), feed P x (d :: ds) = parse P x (d :: ds).flatten := by
  intro ds
  induction ds with
  | nil =>
    intro d x
    simp only [feed, List.flatten_cons, List.flatten_nil, List.append_nil]
    split <;> simp_all
  | cons d' ds ih =>
    intro d x
    rw [feed]
    simp only [parse, List.flatten_cons, ← List.append_assoc]
    match hp : parseInner P x.2 (x.1 ++ d) with
    | (some e, r, s) =>
      rw [List.append_assoc (x.1 ++ d), parseInner_err P h _ hp]
    | (none, r, s) =>
      simp only []
      rw [ih]
      simp only [parse, List.flatten_cons]
      rw [List.append_assoc (x.1 ++ d), parseInner_ok P h _ hp]

theorem readFrom_flatten (P : Params Atom Err σ) (h : Stable P.decode) :
    ∀ (ds : List Bytes) (d : Bytes) (x : Bytes × σ), readFrom P x (d :: ds) = readFrom P x [(d :: ds).flatten] := by
  intro ds
  induction ds with
  | nil => intro d x; simp
  | cons d' ds ih =>
    intro d x
    rw [readFrom, readFrom]
    simp only [List.flatten_cons, ← List.append_assoc]
    match hp : parseInner P x.2 (x.1 ++ d) with
    | (some e, r, s) =>
      rw [List.append_assoc (x.1 ++ d), parseInner_err P h _ hp]
    | (none, r, s) =>
      simp only []
      rw [ih, readFrom]
      simp only [List.flatten_cons]
      rw [List.append_assoc (x.1 ++ d), parseInner_ok P h _ hp]

end Split

/-! ## Samples -/

theorem consecutive_length {mdat : Bytes} : ∀ {o : Nat} {ns : List Nat} {fs : List Frame},
    Consecutive mdat o ns fs → fs.length = ns.length
  | _, [], [], _ => rfl
  | _, _ :: _, _ :: _, h => by simp only [List.length_cons]; rw [consecutive_length h.2.2.2.2]
  | _, [], _ :: _, h => h.elim
  | _, _ :: _, [], h => h.elim

theorem consecutive_end {mdat : Bytes} : ∀ {o : Nat} {ns : List Nat} {fs : List Frame},
    Consecutive mdat o ns fs → ns ≠ [] → o + ns.sum ≤ mdat.length
  | _, [], _, _, hn => (hn rfl).elim
  | _, [n], _ :: _, h, _ => by simpa using h.2.2.1
  | o, n :: m :: ns, _ :: _, h, _ => by
    have := consecutive_end h.2.2.2.2 (by simp)
    simp only [List.sum_cons] at this ⊢; omega
  | _, _ :: _, [], h, _ => h.elim

theorem consecutive_bounds {mdat : Bytes} : ∀ {o : Nat} {ns : List Nat} {fs : List Frame},
    Consecutive mdat o ns fs → ∀ f ∈ fs, o ≤ f.offset ∧ f.offset + f.payload.length ≤ mdat.length ∧
      ∀ i, i < f.payload.length → f.payload[i]? = mdat[f.offset + i]?
  | _, _, [], _ => by simp
  | _, [], _ :: _, h => h.elim
  | o, n :: ns, g :: fs, h => by
    intro f hf
    rcases List.mem_cons.1 hf with rfl | hf
    · refine ⟨by rw [h.1]; exact Nat.le_refl _, by rw [h.1, h.2.1]; exact h.2.2.1, ?_⟩
      rw [h.2.1, h.1]; exact h.2.2.2.1
    · have := consecutive_bounds h.2.2.2.2 f hf
      exact ⟨by omega, this.2⟩

theorem consecutive_disjoint {mdat : Bytes} : ∀ {o : Nat} {ns : List Nat} {fs : List Frame},
    Consecutive mdat o ns fs → fs.Pairwise fun f g => f.offset + f.payload.length ≤ g.offset
  | _, _, [], _ => List.Pairwise.nil
  | _, [], _ :: _, h => h.elim
  | o, n :: ns, g :: fs, h => by
    refine List.Pairwise.cons ?_ (consecutive_disjoint h.2.2.2.2)
    intro f hf
    rw [h.1, h.2.1]
    exact (consecutive_bounds h.2.2.2.2 f hf).1

theorem consecutive_flatten {mdat : Bytes} : ∀ {o : Nat} {ns : List Nat} {fs : List Frame},
    Consecutive mdat o ns fs → (fs.map (·.payload)).flatten = (mdat.drop o).take ns.sum
  | _, [], [], _ => by simp
  | _, [], _ :: _, h => h.elim
  | _, _ :: _, [], h => h.elim
  | o, n :: ns, g :: fs, h => by
    have ih := consecutive_flatten h.2.2.2.2
    have hg : g.payload = (mdat.drop o).take n := by
      apply List.ext_getElem?
      intro i
      by_cases hi : i < n
      · rw [h.2.2.2.1 i hi, List.getElem?_take_of_lt hi, List.getElem?_drop]
      · rw [List.getElem?_eq_none (by rw [h.2.1]; omega), List.getElem?_eq_none]
        rw [List.length_take]; omega
    simp only [List.map_cons, List.flatten_cons, List.sum_cons, ih, hg]
    rw [List.take_add, List.drop_drop]

/-- The size that the code uses is the one listed. -/
theorem listed_sizeOf (moov : Moov) (traf : Traf) (e : Entry) :
    Listed moov traf e (sizeOf traf (trexOf moov traf.trackId).size e) := by
  have hd : (trexOf moov traf.trackId).size = defaultSize moov traf.trackId := by
    unfold trexOf defaultSize
    cases moov.mvex with
    | none => rfl
    | some l =>
      simp only [Option.getD_some, List.head?_filter]
      cases l.find? fun t => decide (t.trackId = traf.trackId) <;> rfl
  unfold Listed sizeOf
  cases e.size <;> cases traf.size <;> simp [hd]

theorem listed_unique {moov : Moov} {traf : Traf} {e : Entry} {n m : Nat} (h : Listed moov traf e n)
    (h' : Listed moov traf e m) : n = m := by
  unfold Listed at h h'
  cases he : e.size <;> cases ht : traf.size <;> simp only [he, ht] at h h' <;> rw [h, h']

theorem sizes_unique {moov : Moov} {traf : Traf} : ∀ {es : List Entry} {ns ms : List Nat},
    Sizes moov traf es ns → Sizes moov traf es ms → ns = ms
  | [], [], [], _, _ => rfl
  | [], _ :: _, _, h, _ => h.elim
  | [], _, _ :: _, _, h => h.elim
  | _ :: _, [], _, h, _ => h.elim
  | _ :: _, _, [], _, h => h.elim
  | _ :: _, _ :: _, _ :: _, h, h' => by rw [listed_unique h.1 h'.1, sizes_unique h.2 h'.2]

/-- What one sample does. -/
theorem sample_cases (moov : Moov) (trak : Trak) (trex : Trex) (traf : Traf) (mdat : Bytes) (dts offset : Nat)
    (s : St) (e : Entry) :
    ((sample moov trak trex traf mdat dts offset s e).2.2.2.frames = s.frames ∧
      (sample moov trak trex traf mdat dts offset s e).1 ≠ .ok) ∨
    (∃ f : Frame, (sample moov trak trex traf mdat dts offset s e).2.2.2.frames = s.frames ++ [f] ∧
      f.trackId = traf.trackId ∧ f.offset = offset ∧
      f.payload = (mdat.drop offset).take (sizeOf traf trex.size e) ∧
      offset + sizeOf traf trex.size e ≤ mdat.length ∧
      ((sample moov trak trex traf mdat dts offset s e).1 = .ok →
        (sample moov trak trex traf mdat dts offset s e).2.2.1 = offset + sizeOf traf trex.size e)) := by
  simp only [sample]
  split
  · exact .inl ⟨rfl, by simp⟩
  · split
    · exact .inl ⟨rfl, by simp⟩
    · split
      · exact .inl ⟨rfl, by simp⟩
      · split
        · exact .inl ⟨rfl, by simp⟩
        · split
          · exact .inl ⟨rfl, by simp⟩
          · rename_i hlen _ _ _ _ _
            split
            · exact .inr ⟨_, rfl, rfl, rfl, rfl, by omega, by simp⟩
            · exact .inr ⟨_, rfl, rfl, rfl, rfl, by omega, fun _ => rfl⟩

theorem samples_spec (moov : Moov) (trak : Trak) (traf : Traf) (mdat : Bytes) :
    ∀ (es : List Entry) (dts offset : Nat) (s : St),
      ∃ fs ns rest, (samples moov trak (trexOf moov traf.trackId) traf mdat dts offset s es).2.frames = s.frames ++ fs ∧
        Sizes moov traf es (ns ++ rest) ∧ Consecutive mdat offset ns fs ∧ (∀ f ∈ fs, f.trackId = traf.trackId) ∧
        ((samples moov trak (trexOf moov traf.trackId) traf mdat dts offset s es).1 = .ok → rest = []) := by
  have all : ∀ es : List Entry, ∃ ns, Sizes moov traf es ns := by
    intro es
    induction es with
    | nil => exact ⟨[], trivial⟩
    | cons e es ih =>
      obtain ⟨ns, h⟩ := ih
      exact ⟨_ :: ns, listed_sizeOf moov traf e, h⟩
  intro es
  induction es with
  | nil => intro dts offset s; exact ⟨[], [], [], by simp [samples], trivial, trivial, by simp, fun _ => rfl⟩
  | cons e es ih =>
    intro dts offset s
    have hc := sample_cases moov trak (trexOf moov traf.trackId) traf mdat dts offset s e
    obtain ⟨os, hos⟩ := all es
    rw [samples]
    match hs : sample moov trak (trexOf moov traf.trackId) traf mdat dts offset s e with
    | (.ok, dts', offset', s') =>
      rw [hs] at hc
      rcases hc with ⟨_, h⟩ | ⟨f, h1, h2, h3, h4, h5, h6⟩
      · exact (h rfl).elim
      · obtain ⟨fs, ns, rest, i1, i2, i3, i4, i5⟩ := ih dts' offset' s'
        simp only at h1 h6
        have ho := h6 trivial
        refine ⟨f :: fs, _ :: ns, rest, ?_, ⟨listed_sizeOf moov traf e, i2⟩, ⟨h3, ?_, h5, ?_, ?_⟩, ?_, i5⟩
        · simp only; rw [i1, h1, List.append_assoc]; rfl
        · rw [h4, List.length_take, List.length_drop]; omega
        · intro i hi; rw [h4, List.getElem?_take_of_lt hi, List.getElem?_drop]
        · rw [← ho]; exact i3
        · intro g hg
          rcases List.mem_cons.1 hg with rfl | hg
          · exact h2
          · exact i4 g hg
    | (.err x, dts', offset', s') | (.panic x, dts', offset', s') =>
      rw [hs] at hc
      rcases hc with ⟨h, _⟩ | ⟨f, h1, h2, h3, h4, h5, h6⟩
      · exact ⟨[], [], _ :: os, by simpa using h, ⟨listed_sizeOf moov traf e, hos⟩, trivial, by simp, by simp⟩
      · refine ⟨[f], [_], os, by simpa using h1, ⟨listed_sizeOf moov traf e, hos⟩,
          ⟨h3, ?_, h5, ?_, trivial⟩, by simpa using h2, by simp⟩
        · rw [h4, List.length_take, List.length_drop]; omega
        · intro i hi; rw [h4, List.getElem?_take_of_lt hi, List.getElem?_drop]

theorem starts_startOf {traf : Traf} {trun : Trun} {m h start : Nat} (hs : startOf traf trun m h = .ok start) :
    Starts traf trun m h start := by
  unfold startOf at hs
  unfold Starts
  cases hd : trun.dataOffset with
  | none => rw [hd] at hs; cases hs; rfl
  | some d =>
    rw [hd] at hs
    simp only at hs ⊢
    split at hs
    · cases hs
    · split at hs
      · cases hs
      · split at hs
        · cases hs
        · split at hs
          · cases hs
          · cases hs; omega

/-- The sizes of a `traf` box, cut short if it is not processed completely. -/
theorem trafStep_spec (known : Nat → Bool) (moov : Moov) (m h : Nat) (mdat : Bytes) (s : St) (traf : Traf) :
    ∃ fs, (trafStep known moov m h mdat s traf).2.frames = s.frames ++ fs ∧
      ((trafStep known moov m h mdat s traf).1 = .ok → FramesOf moov m h mdat traf fs) ∧
      ((trafStep known moov m h mdat s traf).1 ≠ .ok → ∃ trun start ns rest, fs = [] ∨
        (traf.trun = some trun ∧ Starts traf trun m h start ∧ Sizes moov traf trun.entries (ns ++ rest) ∧
          Consecutive mdat start ns fs ∧ ∀ f ∈ fs, f.trackId = traf.trackId)) := by
  have nope : ∀ (o : End), o ≠ .ok → ∃ fs, s.frames = s.frames ++ fs ∧
      (o = .ok → FramesOf moov m h mdat traf fs) ∧
      (o ≠ .ok → ∃ trun start ns rest, fs = [] ∨
        (traf.trun = some trun ∧ Starts traf trun m h start ∧ Sizes moov traf trun.entries (ns ++ rest) ∧
          Consecutive mdat start ns fs ∧ ∀ f ∈ fs, f.trackId = traf.trackId)) :=
    fun o ho => ⟨[], by simp, fun h => (ho h).elim, fun _ => ⟨⟨none, []⟩, 0, [], [], .inl rfl⟩⟩
  unfold trafStep
  split
  · split
    · exact nope _ (by simp)
    · split
      · exact nope _ (by simp)
      · split
        · exact nope _ (by simp)
        · split
          · rename_i trun ht _ _ _ o hst
            refine nope o ?_
            intro ho; subst ho
            simp only [startOf] at hst
            split at hst
            · cases hst
            · split at hst
              · cases hst
              · split at hst
                · cases hst
                · split at hst
                  · cases hst
                  · split at hst <;> cases hst
          · rename_i trak _ _ trun ht _ dts _ _ start hst
            obtain ⟨fs, ns, rest, h1, h2, h3, h4, h5⟩ := samples_spec moov trak traf mdat trun.entries dts start s
            refine ⟨fs, h1, ?_, ?_⟩
            · intro hok
              have hr := h5 hok
              subst hr
              rw [List.append_nil] at h2
              exact ⟨trun, start, ns, ht, starts_startOf hst, h2, h3, h4⟩
            · intro _
              exact ⟨trun, start, ns, rest, .inr ⟨ht, starts_startOf hst, h2, h3, h4⟩⟩
  · exact nope _ (by simp)

theorem trafs_ok (known : Nat → Bool) (moov : Moov) (m h : Nat) (mdat : Bytes) :
    ∀ (ts : List Traf) (s : St), (trafs known moov m h mdat s ts).1 = .ok →
      ∃ fs, (trafs known moov m h mdat s ts).2.frames = s.frames ++ fs ∧ FramesOfAll moov m h mdat ts fs := by
  intro ts
  induction ts with
  | nil => intro s _; exact ⟨[], by simp [trafs], rfl⟩
  | cons t ts ih =>
    intro s hok
    obtain ⟨fs, h1, h2, -⟩ := trafStep_spec known moov m h mdat s t
    rw [trafs] at hok ⊢
    match hs : trafStep known moov m h mdat s t with
    | (.ok, s') =>
      rw [hs] at hok h1 h2
      obtain ⟨gs, i1, i2⟩ := ih s' hok
      refine ⟨fs ++ gs, ?_, fs, gs, rfl, h2 rfl, i2⟩
      rw [i1, h1, List.append_assoc]
    | (.err e, s') => rw [hs] at hok; cases hok
    | (.panic e, s') => rw [hs] at hok; cases hok

theorem trafs_bounds (known : Nat → Bool) (moov : Moov) (m h : Nat) (mdat : Bytes) :
    ∀ (ts : List Traf) (s : St),
      (∀ f ∈ s.frames, f.offset + f.payload.length ≤ mdat.length ∧
        ∀ i, i < f.payload.length → f.payload[i]? = mdat[f.offset + i]?) →
      ∀ f ∈ (trafs known moov m h mdat s ts).2.frames, f.offset + f.payload.length ≤ mdat.length ∧
        ∀ i, i < f.payload.length → f.payload[i]? = mdat[f.offset + i]? := by
  intro ts
  induction ts with
  | nil => intro s hb; simpa [trafs] using hb
  | cons t ts ih =>
    intro s hb
    obtain ⟨fs, h1, h2, h3⟩ := trafStep_spec known moov m h mdat s t
    have hfs : ∀ f ∈ fs, f.offset + f.payload.length ≤ mdat.length ∧
        ∀ i, i < f.payload.length → f.payload[i]? = mdat[f.offset + i]? := by
      intro f hf
      by_cases ho : (trafStep known moov m h mdat s t).1 = .ok
      · obtain ⟨_, _, _, _, _, _, hc, _⟩ := h2 ho
        exact (consecutive_bounds hc f hf).2
      · obtain ⟨_, _, _, _, hx | ⟨_, _, _, hc, _⟩⟩ := h3 ho
        · subst hx; cases hf
        · exact (consecutive_bounds hc f hf).2
    have hall : ∀ f ∈ (trafStep known moov m h mdat s t).2.frames, f.offset + f.payload.length ≤ mdat.length ∧
        ∀ i, i < f.payload.length → f.payload[i]? = mdat[f.offset + i]? := by
      rw [h1]
      intro f hf
      rcases List.mem_append.1 hf with hf | hf
      · exact hb f hf
      · exact hfs f hf
    rw [trafs]
    split
    · rename_i s' hs; rw [hs] at hall; exact ih s' hall
    · rename_i o s' _ hs; rw [hs] at hall; exact hall

/-! ## Times and keyframes -/

theorem fallback_trexOf (moov : Moov) (id : Nat) (field : Trex → Nat) (h0 : ∀ i, field ⟨i, 0, 0, 0⟩ = 0) :
    field (trexOf moov id) = fallback moov id field := by
  unfold trexOf fallback
  cases moov.mvex with
  | none => exact h0 _
  | some l =>
    simp only [Option.getD_some, List.head?_filter]
    cases l.find? fun t => decide (t.trackId = id) with
    | none => exact h0 _
    | some t => rfl

theorem given_getD (own shared : Option Nat) (d : Nat) : Given own shared d (own.getD (shared.getD d)) := by
  unfold Given
  cases own <;> cases shared <;> rfl

theorem timestamp_ok {dts ts micros : Nat} {cts : Int} (hd : dts < 2 ^ 63)
    (h : timestamp dts cts ts = .ok micros) :
    ∃ t : Nat, (t : Int) = dts + cts ∧ micros * ts ≤ 1000000 * t ∧ 1000000 * t < (micros + 1) * ts := by
  simp only [timestamp] at h
  split at h
  · cases h
  · split at h
    · cases h
    · split at h
      · cases h
      · rename_i h1 h2 h3
        injection h with h
        refine ⟨toU64 (toI64 dts + cts), ?_, ?_, ?_⟩
        · unfold toU64 at h2 ⊢
          unfold toI64 at h1 h2 ⊢
          repeat' split at h2
          all_goals repeat' split
          all_goals (repeat' split at h1) <;> omega
        · rw [← h]; exact Nat.div_mul_le_self _ _
        · rw [← h, Nat.mul_comm (_ / _ + 1)]
          exact Nat.lt_mul_div_succ _ (Nat.pos_of_ne_zero h3)

/-- What one sample that is written does to times and keyframes. -/
theorem sample_ok (moov : Moov) (trak : Trak) (trex : Trex) (traf : Traf) (mdat : Bytes)
    {dts offset dts' offset' : Nat} {s s' : St} {e : Entry}
    (h : sample moov trak trex traf mdat dts offset s e = (.ok, dts', offset', s')) :
    ∃ f : Frame, s'.frames = s.frames ++ [f] ∧ f.trackId = traf.trackId ∧
      (dts < 2 ^ 63 → ∃ t : Nat, (t : Int) = dts + e.cts.getD 0 ∧ f.micros * trak.timescale ≤ 1000000 * t ∧
        1000000 * t < (f.micros + 1) * trak.timescale) ∧
      dts' = dts + e.duration.getD (traf.duration.getD trex.duration) ∧
      (trak.handler = .video → (f.keyframe = true ↔
        (e.flags.getD (traf.flags.getD trex.flags)) / 2 ^ 24 % 4 = 2 ∧
        (e.flags.getD (traf.flags.getD trex.flags)) / 2 ^ 16 % 2 = 0)) ∧
      (trak.handler = .audio → (f.keyframe = true ↔
        ∀ p, s.last traf.trackId = some p → 10000000 + p < f.micros)) ∧
      s'.last = fun t => if f.keyframe then
        if t = traf.trackId then some f.micros
        else if trak.handler = .video ∧ (moov.trak.any fun k => k.handler = .audio && k.trackId = t) then none
        else s.last t else s.last t := by
  simp only [sample] at h
  split at h
  · cases h
  · rename_i micros hm
    split at h
    · cases h
    · split at h
      · cases h
      · split at h
        · cases h
        · rename_i keyframe last hk
          split at h
          · cases h
          · split at h
            · cases h
            · simp only [Prod.mk.injEq, true_and] at h
              obtain ⟨rfl, rfl, rfl⟩ := h
              refine ⟨_, rfl, rfl, fun hd => timestamp_ok hd hm, rfl, ?_, ?_, ?_⟩
              · intro hv
                simp only [keyframeOf, hv] at hk
                split at hk
                · rename_i hc
                  cases hk
                  exact iff_of_true rfl ⟨hc.1, by omega⟩
                · rename_i hc
                  cases hk
                  exact iff_of_false (fun hx => Bool.noConfusion hx) fun hx => hc ⟨hx.1, by omega⟩
              · intro ha
                simp only [keyframeOf, ha] at hk
                split at hk
                · rename_i prev hl
                  split at hk
                  · cases hk
                  · cases hk
                    simp only [decide_eq_true_eq]
                    constructor
                    · intro hx p hp
                      cases hp.symm.trans hl
                      omega
                    · intro hx
                      have := hx prev hl
                      omega
                · rename_i hl
                  cases hk
                  refine iff_of_true rfl fun p hp => ?_
                  rw [hl] at hp; cases hp
              · funext t
                dsimp only
                cases hh : trak.handler with
                | video =>
                  simp only [keyframeOf, hh] at hk
                  split at hk
                  · cases hk
                    simp only [if_true, true_and, clearAudio]
                  · cases hk; rfl
                | audio =>
                  simp only [keyframeOf, hh] at hk
                  have hl : last = s.last := by
                    split at hk
                    · split at hk
                      · cases hk
                      · cases hk; rfl
                    · cases hk; rfl
                  subst hl
                  cases keyframe <;> simp

theorem lastKeyframe_snoc (moov : Moov) (last : Nat → Option Nat) (fs : List Frame) (f : Frame) :
    lastKeyframe moov last (fs ++ [f]) = fun t =>
      if f.keyframe then
        if t = f.trackId then some f.micros
        else if ((moov.trak.filter fun k => k.trackId = f.trackId).head?.map (·.handler)) = some .video ∧
            (moov.trak.any fun k => k.handler = .audio && k.trackId = t) then none
        else lastKeyframe moov last fs t
      else lastKeyframe moov last fs t := by
  unfold lastKeyframe
  rw [List.foldl_append]
  rfl

/-- The keyframes of audio tracks among some frames. -/
def AudioKeys (moov : Moov) (last : Nat → Option Nat) (fs : List Frame) : Prop :=
  ∀ pre f post trak, fs = pre ++ f :: post → TrakOf moov f.trackId trak → trak.handler = .audio →
    (f.keyframe = true ↔ ∀ p, lastKeyframe moov last pre f.trackId = some p → 10000000 + p < f.micros)

theorem samples_ok (moov : Moov) (trak : Trak) (traf : Traf) (mdat : Bytes) (last : Nat → Option Nat)
    (ht : TrakOf moov traf.trackId trak) : ∀ (es : List Entry) (dts offset : Nat) (s : St),
      s.last = lastKeyframe moov last s.frames → AudioKeys moov last s.frames →
      (samples moov trak (trexOf moov traf.trackId) traf mdat dts offset s es).1 = .ok →
      ∃ fs, (samples moov trak (trexOf moov traf.trackId) traf mdat dts offset s es).2.frames = s.frames ++ fs ∧
        Timed moov trak traf dts es fs ∧
        (samples moov trak (trexOf moov traf.trackId) traf mdat dts offset s es).2.last =
          lastKeyframe moov last (s.frames ++ fs) ∧ AudioKeys moov last (s.frames ++ fs) := by
  intro es
  induction es with
  | nil => intro dts offset s hl ha _; exact ⟨[], by simp [samples], trivial, by simpa [samples] using hl, by simpa using ha⟩
  | cons e es ih =>
    intro dts offset s hl ha hok
    rw [samples] at hok ⊢
    match hs : sample moov trak (trexOf moov traf.trackId) traf mdat dts offset s e with
    | (.ok, dts', offset', s') =>
      rw [hs] at hok
      obtain ⟨f, h1, h2, h3, h4, h6, h7, h8⟩ := sample_ok moov trak _ traf mdat hs
      have hl' : s'.last = lastKeyframe moov last s'.frames := by
        rw [h8, h1, lastKeyframe_snoc, h2]
        unfold TrakOf at ht
        simp only [ht, hl, Option.map_some, Option.some.injEq]
      have ha' : AudioKeys moov last s'.frames := by
        rw [h1]
        intro pre g post tk he hg hga
        rcases List.eq_nil_or_concat post with rfl | ⟨q, x, rfl⟩
        · obtain ⟨rfl, hx⟩ := List.append_inj' he rfl
          cases hx
          unfold TrakOf at ht hg
          rw [h2, ht] at hg
          cases hg
          rw [← hl, h2]
          exact h7 hga
        · rw [List.concat_eq_append, ← List.cons_append, ← List.append_assoc] at he
          obtain ⟨hx, -⟩ := List.append_inj' he rfl
          exact ha pre g q tk hx hg hga
      obtain ⟨fs, i1, i2, i3, i4⟩ := ih dts' offset' s' hl' ha' hok
      have g1 := given_getD e.flags traf.flags (trexOf moov traf.trackId).flags
      have g2 := given_getD e.duration traf.duration (trexOf moov traf.trackId).duration
      have f1 := fallback_trexOf moov traf.trackId (·.flags) fun _ => rfl
      have f2 := fallback_trexOf moov traf.trackId (·.duration) fun _ => rfl
      refine ⟨f :: fs, ?_, ⟨h3, ⟨_, f1 ▸ g1, h6⟩, e.duration.getD (traf.duration.getD (trexOf moov traf.trackId).duration), ?_,
        h4 ▸ i2⟩, ?_, ?_⟩
      · simp only; rw [i1, h1, List.append_assoc]; rfl
      · rw [← f2]; exact g2
      · simp only; rw [i3, h1, List.append_assoc]; rfl
      · rw [h1, List.append_assoc] at i4; exact i4
    | (.err x, dts', offset', s') => rw [hs] at hok; cases hok
    | (.panic x, dts', offset', s') => rw [hs] at hok; cases hok

theorem trafs_timed (known : Nat → Bool) (moov : Moov) (m h : Nat) (mdat : Bytes) (last : Nat → Option Nat) :
    ∀ (ts : List Traf) (s : St), s.last = lastKeyframe moov last s.frames → AudioKeys moov last s.frames →
      (trafs known moov m h mdat s ts).1 = .ok →
      ∃ fs, (trafs known moov m h mdat s ts).2.frames = s.frames ++ fs ∧ TimedAll moov ts fs ∧
        (trafs known moov m h mdat s ts).2.last = lastKeyframe moov last (s.frames ++ fs) ∧
        AudioKeys moov last (s.frames ++ fs) := by
  intro ts
  induction ts with
  | nil => intro s hl ha _; exact ⟨[], by simp [trafs], rfl, by simpa [trafs] using hl, by simpa using ha⟩
  | cons t ts ih =>
    intro s hl ha hok
    rw [trafs] at hok ⊢
    match hs : trafStep known moov m h mdat s t with
    | (.err e, s') => rw [hs] at hok; cases hok
    | (.panic e, s') => rw [hs] at hok; cases hok
    | (.ok, s') =>
      rw [hs] at hok
      unfold trafStep at hs
      split at hs
      · split at hs
        · cases hs
        · split at hs
          · cases hs
          · split at hs
            · cases hs
            · split at hs
              · rename_i hst
                cases hs
                simp only [startOf] at hst
                repeat' split at hst
                all_goals cases hst
              · rename_i trak htr _ trun hrun _ dts htf _ start hst
                have htk : TrakOf moov t.trackId trak := by
                  unfold TrakOf
                  rw [List.head?_filter]
                  exact htr
                obtain ⟨fs, h1, h2, h3, h4⟩ := samples_ok moov trak t mdat last htk trun.entries dts start s
                  hl ha (by rw [hs])
                rw [hs] at h1 h3
                simp only at h1 h3
                obtain ⟨gs, i1, i2, i3, i4⟩ := ih s' (by rw [h3, h1])
                  (by rw [h1]; exact h4) hok
                refine ⟨fs ++ gs, ?_, ⟨fs, gs, trak, trun, dts, rfl, htk, hrun, htf, h2, i2⟩, ?_, ?_⟩
                · simp only; rw [i1, h1, List.append_assoc]
                · simp only; rw [i3, h1, List.append_assoc]
                · rw [h1, List.append_assoc] at i4; exact i4
      · cases hs

/-! ## When nothing panics -/

theorem timestamp_tame {dts ts : Nat} {cts : Int} (ht : 0 < ts) (hd : dts < 2 ^ 41) (h0 : 0 ≤ cts)
    (h1 : cts < 2 ^ 31) : timestamp dts cts ts = .ok (1000000 * (dts + cts.toNat) / ts) := by
  have e1 : toI64 dts = dts := by unfold toI64; rw [if_pos (by omega)]
  have e2 : toU64 ((dts : Int) + cts) = dts + cts.toNat := by unfold toU64; rw [if_neg (by omega)]; omega
  simp only [timestamp, e1]
  rw [e2, if_neg (by omega), if_neg (by omega), if_neg (by omega)]

theorem sample_tame (moov : Moov) (trak : Trak) (trex : Trex) (traf : Traf) (mdat : Bytes) (dts offset : Nat)
    (s : St) (e : Entry) (hlen : mdat.length < 2 ^ 63) (ht : 0 < trak.timescale)
    (hd : dts + e.duration.getD (traf.duration.getD trex.duration) < 2 ^ 41) (ho : offset < 2 ^ 63)
    (hsz : sizeOf traf trex.size e < 2 ^ 32) (h0 : 0 ≤ e.cts.getD 0) (h1 : e.cts.getD 0 < 2 ^ 31)
    (ha : trak.handler = .audio → e.cts.getD 0 = 0)
    (hf : ∀ prev, trak.handler = .audio → s.last traf.trackId = some prev → prev ≤ 1000000 * dts / trak.timescale) :
    (∃ x, (sample moov trak trex traf mdat dts offset s e).1 = .err x) ∨
    ∃ s', sample moov trak trex traf mdat dts offset s e =
        (.ok, dts + e.duration.getD (traf.duration.getD trex.duration), offset + sizeOf traf trex.size e, s') ∧
      offset + sizeOf traf trex.size e < 2 ^ 63 ∧
      ∀ prev, trak.handler = .audio → s'.last traf.trackId = some prev →
        prev ≤ 1000000 * (dts + e.duration.getD (traf.duration.getD trex.duration)) / trak.timescale := by
  have hts := timestamp_tame ht (by omega : dts < 2 ^ 41) h0 h1
  have hmic : 1000000 * (dts + (e.cts.getD 0).toNat) / trak.timescale < 2 ^ 62 :=
    Nat.lt_of_le_of_lt (Nat.div_le_self _ _) (by omega)
  have hmono : 1000000 * dts / trak.timescale ≤
      1000000 * (dts + e.duration.getD (traf.duration.getD trex.duration)) / trak.timescale :=
    Nat.div_le_div_right (by omega)
  simp only [sample, hts]
  rw [if_neg (by omega)]
  split
  · exact .inl ⟨_, rfl⟩
  · rename_i hle
    right
    cases hh : trak.handler with
    | video =>
      simp only [keyframeOf, hh]
      split
      · rename_i hk
        split at hk
        · cases hk
        · cases hk
      · rw [if_neg (by omega), if_neg (by omega)]
        refine ⟨_, rfl, by omega, ?_⟩
        intro _ hx; cases hx
    | audio =>
      have hc := ha hh
      rw [hc] at hmic ⊢
      simp only [keyframeOf, hh]
      simp only [Int.toNat_zero, Nat.add_zero] at hmic ⊢
      cases hl : s.last traf.trackId with
      | none =>
        simp only []
        rw [if_neg (by omega), if_neg (by omega)]
        refine ⟨_, rfl, by omega, ?_⟩
        intro prev _ hp
        simp only [if_true] at hp
        cases hp
        exact hmono
      | some q =>
        have hq := hf q hh hl
        simp only []
        rw [if_neg (by omega)]
        simp only []
        rw [if_neg (by omega), if_neg (by omega)]
        refine ⟨_, rfl, by omega, ?_⟩
        intro prev _ hp
        simp only [] at hp
        split at hp
        · simp only [if_true] at hp
          cases hp
          exact hmono
        · rw [hl] at hp
          cases hp
          omega

theorem samples_tame (moov : Moov) (trak : Trak) (traf : Traf) (mdat : Bytes)
    (hlen : mdat.length < 2 ^ 63) (ht : 0 < trak.timescale) :
    ∀ (es : List Entry) (dts offset : Nat) (s : St),
      dts + (es.map fun e => e.duration.getD (traf.duration.getD (trexOf moov traf.trackId).duration)).sum < 2 ^ 41 →
      offset < 2 ^ 63 →
      (∀ e ∈ es, sizeOf traf (trexOf moov traf.trackId).size e < 2 ^ 32 ∧ 0 ≤ e.cts.getD 0 ∧ e.cts.getD 0 < 2 ^ 31 ∧
        (trak.handler = .audio → e.cts.getD 0 = 0)) →
      (∀ prev, trak.handler = .audio → s.last traf.trackId = some prev → prev ≤ 1000000 * dts / trak.timescale) →
      ∀ f, (samples moov trak (trexOf moov traf.trackId) traf mdat dts offset s es).1 ≠ .panic f := by
  intro es
  induction es with
  | nil => intro dts offset s _ _ _ _ f; simp [samples]
  | cons e es ih =>
    intro dts offset s hd ho he hf f
    obtain ⟨a1, a2, a3, a4⟩ := he e (List.mem_cons_self ..)
    simp only [List.map_cons, List.sum_cons] at hd
    rw [samples]
    rcases sample_tame moov trak (trexOf moov traf.trackId) traf mdat dts offset s e hlen ht (by omega) ho a1 a2 a3 a4 hf
      with ⟨x, hx⟩ | ⟨s', hs, ho', hf'⟩
    · split
      · rename_i hs; rw [hs] at hx; cases hx
      · rename_i hs; rw [hs] at hx; simp only at hx ⊢; rw [hx]; simp
    · rw [hs]
      exact ih _ _ s' (by omega) ho' (fun e' h' => he e' (List.mem_cons_of_mem _ h')) hf' f

theorem trafStep_tame (known : Nat → Bool) (moov : Moov) (trak : Trak) (m h : Nat) (mdat : Bytes) (s : St) (traf : Traf)
    (hlen : mdat.length < 2 ^ 63)
    (hk : (moov.trak.filter fun t => t.trackId = traf.trackId).head? = some trak)
    (ht : Tame moov trak m h s.last traf) (f : Fault) :
    (trafStep known moov m h mdat s traf).1 ≠ .panic f := by
  rw [List.head?_filter] at hk
  unfold trafStep
  split
  · rw [hk]
    simp only []
    split
    · simp
    · rename_i trun hr
      split
      · simp
      · rename_i dts hdts
        split
        · rename_i o hst
          simp only [startOf] at hst
          split at hst
          · cases hst
          · rename_i d hd
            obtain ⟨b1, b2⟩ := ht.offset trun d hr hd
            have hb := ht.base
            split at hst
            · cases hst; simp
            · split at hst
              · cases hst; simp
              · rw [if_neg (by omega), if_neg (by omega)] at hst
                cases hst
        · rename_i start hst
          have hb := ht.base
          have hstart : start < 2 ^ 63 := by
            have := starts_startOf hst
            unfold Starts at this
            cases hd : trun.dataOffset with
            | none => rw [hd] at this; simp only at this; omega
            | some d =>
              rw [hd] at this
              simp only at this
              obtain ⟨_, b2⟩ := ht.offset trun d hr hd
              omega
          refine samples_tame moov trak traf mdat hlen ht.timescale trun.entries dts start s (ht.time trun dts hr hdts)
            hstart ?_ ?_ f
          · intro e he
            obtain ⟨c1, c2, c3⟩ := ht.cts trun e hr he
            exact ⟨ht.size trun e hr he _ (listed_sizeOf moov traf e), c1, c2, c3⟩
          · intro prev ha hp
            exact ht.forward dts prev hdts ha hp
  · simp

end Verif.Hang.Import
