import Verif.Gst.Source
import Verif.JsonLemmas

/-!
# C125: the source element of GStreamer

The pads, whether they are active, and the first frame of each are taken from the history.
-/

set_option autoImplicit false

namespace Verif.Props.GstSource

open Verif Verif.Hang Verif.Hang.CatalogJson Verif.Gst.Source

/-! ## Specification -/

/-- What the history says of a pad. -/
structure Seen where
  kind : Kind
  name : String
  active : Bool
  /-- the timestamp of the first frame -/
  first : Option Nat
  /-- the task has ended -/
  over : Bool
  deriving DecidableEq

structure Hist where
  url : Bool
  /-- the element panicked without a URL -/
  noUrl : Bool
  dead : Bool
  paused : Bool
  pads : List Seen
  deriving DecidableEq

def fresh (l : List Added) : List Seen := l.map fun x => ⟨x.kind, x.name, true, none, false⟩

def change (h : Hist) (n : Nat) (f : Seen → Seen) : Hist := { h with pads := h.pads.modify n f }

def see (h : Hist) (e : Op × Out) : Hist :=
  match e with
  | (.setUrl b, .ok) => { h with url := b }
  | (.start _, .started l) =>
    { h with paused := true, pads := (h.pads ++ fresh l).map fun x => { x with active := true } }
  | (.start _, .panicked l) => { h with dead := true, noUrl := !h.url, pads := h.pads ++ fresh l }
  | (.stop, .ok) => { h with paused := false, pads := h.pads.map fun x => { x with active := false } }
  | (.frame n f, .pushed _ _) => change h n fun x => { x with first := x.first.or (some f.timestamp) }
  | (.frame n _, .crashed) => change h n fun x => { x with over := true }
  | (.over n, .ok) => change h n fun x => { x with over := true }
  | (.broken n, .crashed) => change h n fun x => { x with over := true }
  | _ => h

def hist (tr : Trace) : Hist := tr.foldl see ⟨false, false, false, false, []⟩

/-- An entry of the catalog. -/
inductive Entry where
  | video (v : Video)
  | audio (a : Audio)

def entries (c : Catalog) : List Entry := c.video.map .video ++ c.audio.map .audio

def Entry.name : Entry → String
  | .video v => v.track.name
  | .audio a => a.track.name

/-- The codec is one of H.264, AAC and Opus. -/
def Supported : Entry → Prop
  | .video v => ∃ c, v.config.codec = .h264 c
  | .audio a => (∃ c, a.config.codec = .aac c) ∨ a.config.codec = .opus

/-- The value of a field. -/
def field (c : Caps) (a : String) : Option Value := (c.fields.find? fun x => x.1 == a).map Prod.snd

/-- The format, and the data for the decoder. -/
def Format (c : Caps) (d : Option Bytes) (with_ without : String) : Prop :=
  field c "codec_data" = d.map .data ∧ field c "stream-format" = some (.str (if d.isSome then with_ else without))

/-- The pad for an entry. -/
def Shows (e : Entry) (x : Added) : Prop :=
  x.name = e.name ∧
  match e with
  | .video v =>
    x.kind = .video ∧ (∃ c, v.config.codec = .h264 c) ∧ x.caps.media = "video/x-h264" ∧
      field x.caps "alignment" = some (.str "au") ∧ Format x.caps v.config.description "avc" "annexb"
  | .audio a =>
    x.kind = .audio ∧ field x.caps "rate" = some (.num a.config.sampleRate.toNat) ∧
      field x.caps "channels" = some (.num a.config.channelCount.toNat) ∧
      (((∃ c, a.config.codec = .aac c) ∧ x.caps.media = "audio/mpeg" ∧ field x.caps "mpegversion" = some (.num 4) ∧
          Format x.caps a.config.description "aac" "adts") ∨
        (a.config.codec = .opus ∧ x.caps.media = "audio/x-opus" ∧ Format x.caps a.config.description "ogg" "opus"))

def names (h : Hist) : List String := h.pads.map Seen.name

/-- All entries can have pads. -/
def Fits (used : List String) (l : List Entry) : Prop :=
  (∀ e ∈ l, Supported e ∧ e.name ∉ used) ∧ (l.map Entry.name).Nodup

/-- The frames that a pad's task read and pushed, with the buffers. -/
def sent (n : Nat) (tr : Trace) : List (Frame × Buffer) :=
  tr.filterMap fun e =>
    match e with
    | (.frame m f, .pushed b _) => if m = n then some (f, b) else none
    | _ => none

/-! ## The pads -/

theorem supported_video (v : Video) : (videoCaps v.config).isSome = true ↔ Supported (.video v) := by
  unfold videoCaps Supported
  cases h : v.config.codec <;> simp [h]

theorem supported_audio (a : Audio) : (audioCaps a.config).isSome = true ↔ Supported (.audio a) := by
  unfold audioCaps Supported
  cases h : a.config.codec <;> simp [h]

def plan : Entry → Plan
  | .video v => ⟨.video, v.track.name, videoCaps v.config⟩
  | .audio a => ⟨.audio, a.track.name, audioCaps a.config⟩

theorem plans_eq (c : Catalog) : plans c = (entries c).map plan := by
  simp [plans, entries, plan, Function.comp_def]

theorem plan_name (e : Entry) : (plan e).name = e.name := by cases e <;> rfl

theorem supported_iff (e : Entry) : (plan e).caps.isSome = true ↔ Supported e := by
  cases e with
  | video v => exact supported_video v
  | audio a => exact supported_audio a

theorem shows_plan {e : Entry} {c : Caps} (h : (plan e).caps = some c) : Shows e ⟨(plan e).kind, (plan e).name, c⟩ := by
  cases e with
  | video v =>
    simp only [plan, videoCaps] at h
    split at h
    · rename_i x hx
      cases h
      refine ⟨rfl, rfl, ⟨x, hx⟩, rfl, rfl, ?_⟩
      cases v.config.description <;> exact ⟨rfl, rfl⟩
    · cases h
  | audio a =>
    simp only [plan, audioCaps] at h
    split at h
    · rename_i x hx
      cases h
      refine ⟨rfl, rfl, rfl, rfl, .inl ⟨⟨x, hx⟩, rfl, rfl, ?_⟩⟩
      cases a.config.description <;> exact ⟨rfl, rfl⟩
    · rename_i hx
      cases h
      refine ⟨rfl, rfl, rfl, rfl, .inr ⟨hx, rfl, ?_⟩⟩
      cases a.config.description <;> exact ⟨rfl, rfl⟩
    · cases h

theorem addPad_some {l : List Pad} {e : Entry} {x : Pad} (h : addPad l (plan e) = some x) :
    Supported e ∧ e.name ∉ l.map Pad.name ∧ Shows e ⟨x.kind, x.name, x.caps⟩ ∧ x.name = e.name ∧ x.active = true ∧
      x.reference = none ∧ x.reading = true := by
  unfold addPad at h
  cases hc : (plan e).caps with
  | none => rw [hc] at h; cases h
  | some c =>
    rw [hc] at h
    simp only at h
    split at h
    · cases h
    · rename_i hn
      cases h
      refine ⟨(supported_iff e).1 (by rw [hc]; rfl), ?_, shows_plan hc, plan_name e, rfl, rfl, rfl⟩
      intro hm
      obtain ⟨y, hy, he⟩ := List.mem_map.1 hm
      exact hn (List.any_eq_true.2 ⟨y, hy, by rw [plan_name, he]; exact beq_self_eq_true _⟩)

theorem addPad_none {l : List Pad} {e : Entry} (h : addPad l (plan e) = none) : ¬ Supported e ∨ e.name ∈ l.map Pad.name := by
  unfold addPad at h
  cases hc : (plan e).caps with
  | none => exact .inl (by rw [← supported_iff, hc]; decide)
  | some c =>
    rw [hc] at h
    simp only at h
    split at h
    · rename_i hn
      obtain ⟨y, hy, he⟩ := List.any_eq_true.1 hn
      refine .inr (List.mem_map.2 ⟨y, hy, ?_⟩)
      rw [plan_name] at he
      exact eq_of_beq he
    · cases h

/-- The new pads are as the history sees them. -/
def New (l : List Pad) : Prop := ∀ x ∈ l, x.active = true ∧ x.reference = none ∧ x.reading = true

theorem addPads_spec : ∀ (es : List Entry) (l : List Pad),
    New (addPads l (es.map plan)).1 ∧
    (((addPads l (es.map plan)).2 = true ∧ Fits (l.map Pad.name) es ∧ ListRel Shows es (added (addPads l (es.map plan)).1)) ∨
     ((addPads l (es.map plan)).2 = false ∧ ∃ good bad rest, es = good ++ bad :: rest ∧
        ListRel Shows good (added (addPads l (es.map plan)).1) ∧ Fits (l.map Pad.name) good ∧
        (¬ Supported bad ∨ bad.name ∈ l.map Pad.name ++ good.map Entry.name))) := by
  intro es
  induction es with
  | nil => intro l; exact ⟨fun _ h => (nomatch h), .inl ⟨rfl, ⟨fun _ h => (nomatch h), List.nodup_nil⟩, .nil⟩⟩
  | cons e es ih =>
    intro l
    simp only [List.map_cons, addPads]
    cases h : addPad l (plan e) with
    | none =>
      refine ⟨fun _ h => (nomatch h), .inr ⟨rfl, [], e, es, rfl, .nil, ⟨fun _ h => (nomatch h), List.nodup_nil⟩, ?_⟩⟩
      simpa using addPad_none h
    | some x =>
      obtain ⟨h1, h2, h3, h4, h5⟩ := addPad_some h
      have fits : ∀ {g : List Entry}, Fits ((l ++ [x]).map Pad.name) g → Fits (l.map Pad.name) (e :: g) := by
        intro g hg
        refine ⟨fun y hy => ?_, ?_⟩
        · rcases List.mem_cons.1 hy with rfl | hy
          · exact ⟨h1, h2⟩
          · refine ⟨(hg.1 y hy).1, fun hm => (hg.1 y hy).2 ?_⟩
            rw [List.map_append]
            exact List.mem_append_left _ hm
        · rw [List.map_cons, List.nodup_cons]
          refine ⟨fun hm => ?_, hg.2⟩
          obtain ⟨y, hy, he⟩ := List.mem_map.1 hm
          refine (hg.1 y hy).2 ?_
          rw [List.map_append, he, ← h4]
          exact List.mem_append_right _ (by simp)
      obtain ⟨hn, hr⟩ := ih (l ++ [x])
      refine ⟨fun y hy => ?_, ?_⟩
      · rcases List.mem_cons.1 hy with rfl | hy
        · exact h5
        · exact hn y hy
      · rcases hr with ⟨hr, hf, hl⟩ | ⟨hr, good, bad, rest, he, hl, hf, hb⟩
        · exact .inl ⟨hr, fits hf, .cons h3 hl⟩
        · refine .inr ⟨hr, e :: good, bad, rest, by rw [he]; rfl, .cons h3 hl, fits hf, ?_⟩
          rcases hb with hb | hb
          · exact .inl hb
          · refine .inr ?_
            simpa [h4] using hb

/-! ## The invariant -/

/-- A pad as the history sees it. -/
def seen (x : Pad) : Seen := ⟨x.kind, x.name, x.active, x.reference, !x.reading⟩

structure Inv (tr : Trace) (s : State) : Prop where
  url : (hist tr).url = s.url
  noUrl : (hist tr).noUrl = s.poisoned
  dead : (hist tr).dead = s.dead
  paused : (hist tr).paused = s.paused
  pads : (hist tr).pads = s.pads.map seen

theorem hist_snoc (tr : Trace) (e : Op × Out) : hist (tr ++ [e]) = see (hist tr) e := by
  simp [hist, List.foldl_append]

theorem fresh_eq {l : List Pad} (h : New l) : fresh (added l) = l.map seen := by
  unfold fresh added
  rw [List.map_map]
  refine List.map_congr_left fun x hx => ?_
  obtain ⟨h1, h2, h3⟩ := h x hx
  simp [seen, h1, h2, h3]

theorem modify_seen {l : List Pad} {n : Nat} {x y : Pad} (hx : l[n]? = some x) {f : Seen → Seen} (hf : f (seen x) = seen y) :
    (l.map seen).modify n f = (l.set n y).map seen := by
  refine List.ext_getElem? fun i => ?_
  rw [List.getElem?_modify, List.getElem?_map, List.getElem?_map, List.getElem?_set]
  by_cases hi : n = i
  · subst hi
    obtain ⟨hlt, he⟩ := List.getElem?_eq_some_iff.1 hx
    simp [hlt, he, hf]
  · simp [hi]

theorem inv_step {tr : Trace} {s : State} (v : Inv tr s) (hd : s.poisoned = true → s.dead = true) (op : Op) :
    Inv (tr ++ [(op, (step s op).1)]) (step s op).2 := by
  have same : ∀ {o : Out}, see (hist tr) (op, o) = hist tr → Inv (tr ++ [(op, o)]) s := by
    intro o ho
    have : hist (tr ++ [(op, o)]) = hist tr := by rw [hist_snoc, ho]
    exact ⟨by rw [this]; exact v.url, by rw [this]; exact v.noUrl, by rw [this]; exact v.dead, by rw [this]; exact v.paused,
      by rw [this]; exact v.pads⟩
  cases op with
  | setUrl b =>
    simp only [step]
    split
    · exact same rfl
    · constructor <;> rw [hist_snoc] <;> simp only [see, v.noUrl, v.dead, v.paused, v.pads]
  | start c =>
    simp only [step, start]
    split
    · exact same rfl
    · split
      · exact same rfl
      · split
        · rename_i hu
          constructor <;> rw [hist_snoc] <;> simp only [see, v.url, v.paused, v.pads]
          · simpa using hu
          · simp [fresh]
        · rename_i hde hpa hu
          cases c with
          | none => exact same rfl
          | some c =>
            simp only
            rw [plans_eq]
            have hn := (addPads_spec (entries c) s.pads).1
            split
            · constructor <;> rw [hist_snoc] <;> simp only [see, v.url, v.noUrl, v.dead, v.pads]
              rw [fresh_eq hn, List.map_map, ← List.map_append, List.map_map]
              rfl
            · constructor <;> rw [hist_snoc] <;> simp only [see, v.url, v.paused, v.pads]
              · simp only [Bool.not_eq_true, Bool.not_eq_false'] at hu
                cases hp : s.poisoned
                · simp [hu]
                · exact absurd (hd hp) hde
              · rw [fresh_eq hn, List.map_append]
  | stop =>
    simp only [step]
    split
    · constructor <;> rw [hist_snoc] <;> simp only [see, v.url, v.noUrl, v.dead, v.pads]
      rw [List.map_map, List.map_map]
      rfl
    · exact same rfl
  | frame n f =>
    simp only [step, frame]
    split
    · exact same rfl
    · rename_i x hx
      split
      · exact same rfl
      · rename_i hr
        split
        · constructor <;> rw [hist_snoc] <;> simp only [see, change, v.url, v.noUrl, v.dead, v.paused, v.pads]
          exact modify_seen hx (by simp [seen])
        · constructor <;> rw [hist_snoc] <;> simp only [see, change, v.url, v.noUrl, v.dead, v.paused, v.pads]
          refine modify_seen hx ?_
          simp only [seen]
          cases x.reference <;> rfl
  | over n =>
    simp only [step, finish]
    split
    · exact same rfl
    · rename_i x hx
      split
      · exact same rfl
      · constructor <;> rw [hist_snoc] <;> simp only [see, change, v.url, v.noUrl, v.dead, v.paused, v.pads]
        exact modify_seen hx (by simp [seen])
  | broken n =>
    simp only [step, finish]
    split
    · exact same rfl
    · rename_i x hx
      split
      · exact same rfl
      · constructor <;> rw [hist_snoc] <;> simp only [see, change, v.url, v.noUrl, v.dead, v.paused, v.pads]
        exact modify_seen hx (by simp [seen])

/-- A missing URL kills the element, and an element that is dead is not paused. -/
theorem dead_step {s : State} (h : (s.poisoned = true → s.dead = true) ∧ (s.dead = true → s.paused = false)) (op : Op) :
    ((step s op).2.poisoned = true → (step s op).2.dead = true) ∧ ((step s op).2.dead = true → (step s op).2.paused = false) := by
  cases op with
  | setUrl b => simp only [step]; split <;> exact h
  | start c =>
    simp only [step, start]
    split
    · exact h
    · split
      · exact h
      · rename_i hp
        simp only [Bool.not_eq_true] at hp
        split
        · exact ⟨fun _ => rfl, fun _ => hp⟩
        · cases c with
          | none => exact h
          | some c =>
            rename_i hd _
            simp only
            split
            · exact ⟨h.1, fun hh => absurd hh hd⟩
            · exact ⟨fun _ => rfl, fun _ => hp⟩
  | stop =>
    simp only [step]
    split
    · exact ⟨h.1, fun _ => rfl⟩
    · exact h
  | frame n f => simp only [step, frame]; split <;> (try split) <;> (try split) <;> exact h
  | over n => simp only [step, finish]; split <;> (try split) <;> exact h
  | broken n => simp only [step, finish]; split <;> (try split) <;> exact h

theorem dead_reach {tr : Trace} {s : State} (h : machine.Reach tr s) :
    (s.poisoned = true → s.dead = true) ∧ (s.dead = true → s.paused = false) :=
  Machine.Reach.induct (M := machine) (P := fun _ s => (s.poisoned = true → s.dead = true) ∧ (s.dead = true → s.paused = false))
    ⟨id, fun _ => rfl⟩ (fun _ _ op _ ih => dead_step ih op) h

theorem inv_reach {tr : Trace} {s : State} (h : machine.Reach tr s) : Inv tr s :=
  Machine.Reach.induct (M := machine) (P := Inv) ⟨rfl, rfl, rfl, rfl, rfl⟩
    (fun _ _ op hr ih => inv_step ih (dead_reach hr).1 op) h

/-! ## Theorems -/

variable {tr : Trace} {s : State}

theorem names_eq (v : Inv tr s) : names (hist tr) = s.pads.map Pad.name := by
  rw [names, v.pads, List.map_map]
  rfl

/-- When the element is started with a catalog, it is paused if all tracks are supported and their names are different from each
other and from those of the pads there are, and then there is a pad for each track that says how to decode it. -/
theorem c125_start (h : machine.Reach tr s) (hd : (hist tr).dead = false) (hp : (hist tr).paused = false) (hu : (hist tr).url = true)
    (c : Catalog) :
    ((∃ l, (step s (.start (some c))).1 = .started l) ↔ Fits (names (hist tr)) (entries c)) ∧
    ∀ l, (step s (.start (some c))).1 = .started l → ListRel Shows (entries c) l := by
  have v := inv_reach h
  rw [v.dead] at hd
  rw [v.paused] at hp
  rw [v.url] at hu
  simp only [step, start, hd, hp, hu, plans_eq, names_eq v]
  rcases (addPads_spec (entries c) s.pads).2 with ⟨hr, hf, hl⟩ | ⟨hr, good, bad, rest, he, hl, -, hb⟩
  · simp only [hr]
    refine ⟨⟨fun _ => hf, fun _ => ⟨_, rfl⟩⟩, fun l hh => ?_⟩
    cases hh
    exact hl
  · simp only [hr]
    refine ⟨⟨?_, fun hf => absurd hf ?_⟩, ?_⟩
    · rintro ⟨l, hh⟩
      cases hh
    · rintro ⟨h1, h2⟩
      have hbad := h1 bad (by rw [he]; simp)
      rcases hb with hb | hb
      · exact hb hbad.1
      · rcases List.mem_append.1 hb with hb | hb
        · exact hbad.2 hb
        · rw [he, List.map_append, List.map_cons, List.nodup_append] at h2
          exact h2.2.2 _ hb _ (by simp) rfl
    · intro l hh
      cases hh

/-- Otherwise it panics at the first track that is not supported or whose name is taken; there are pads for the tracks before. -/
theorem c125_start_partial (h : machine.Reach tr s) (hd : (hist tr).dead = false) (hp : (hist tr).paused = false)
    (hu : (hist tr).url = true) (c : Catalog) (hf : ¬ Fits (names (hist tr)) (entries c)) :
    ∃ l good bad rest, (step s (.start (some c))).1 = .panicked l ∧ entries c = good ++ bad :: rest ∧ ListRel Shows good l ∧
      Fits (names (hist tr)) good ∧ (¬ Supported bad ∨ bad.name ∈ names (hist tr) ++ good.map Entry.name) := by
  have v := inv_reach h
  rw [v.dead] at hd
  rw [v.paused] at hp
  rw [v.url] at hu
  rw [names_eq v] at hf ⊢
  simp only [step, start, hd, hp, hu, plans_eq]
  rcases (addPads_spec (entries c) s.pads).2 with ⟨hr, hf', hl⟩ | ⟨hr, good, bad, rest, he, hl, hg, hb⟩
  · exact absurd hf' hf
  · simp only [hr]
    exact ⟨_, good, bad, rest, rfl, he, hl, hg, hb⟩

/-- What else may happen when it is started. -/
theorem c125_other (h : machine.Reach tr s) (c : Option Catalog) :
    ((step s (.start c)).1 = .invalid ↔ (hist tr).paused = true) ∧
    ((step s (.start c)).1 = .failed ↔ (hist tr).dead = true ∨ ((hist tr).paused = false ∧ (hist tr).url = true ∧ c = none)) ∧
    ((hist tr).dead = false → (hist tr).paused = false → (hist tr).url = false → (step s (.start c)).1 = .panicked []) ∧
    ((step s .stop).1 = .ok ↔ (hist tr).paused = true) := by
  have v := inv_reach h
  have hdp := (dead_reach h).2
  rw [v.dead, v.paused, v.url]
  simp only [step, start]
  cases hd : s.dead
  · cases hp : s.paused
    · cases hu : s.url
      · simp
      · cases c with
        | none => simp
        | some c => simp only [Bool.false_eq_true, if_false, Bool.not_true]; split <;> simp
    · simp
  · simp [hdp hd]

/-- After a panic the element never starts again, whatever is done. -/
theorem c125_dead (h : machine.Reach tr s) (hd : (hist tr).dead = true) (ops : List Op) (c : Option Catalog) :
    (step (machine.runFrom s ops).2 (.start c)).1 = .failed := by
  have key : ∀ (ops : List Op) (s : State), s.dead = true → (machine.runFrom s ops).2.dead = true := by
    intro ops
    induction ops with
    | nil => intro s h; exact h
    | cons op ops ih =>
      intro s hs
      refine ih _ ?_
      show (step s op).2.dead = true
      cases op with
      | setUrl b => simp only [step]; split <;> exact hs
      | start c => simp only [step, start, hs]; exact hs
      | stop => simp only [step]; split <;> exact hs
      | frame n f => simp only [step, frame]; split <;> (try split) <;> (try split) <;> exact hs
      | over n => simp only [step, finish]; split <;> (try split) <;> exact hs
      | broken n => simp only [step, finish]; split <;> (try split) <;> exact hs
  have hs : s.dead = true := by rw [← (inv_reach h).dead]; exact hd
  simp [step, start, key ops s hs]

/-- A missing URL makes the element panic, and so does any attempt to set one later. -/
theorem c125_url (h : machine.Reach tr s) (b : Bool) :
    (step s (.setUrl b)).1 = if (hist tr).noUrl then .panicked [] else .ok := by
  rw [(inv_reach h).noUrl]
  simp only [step]
  cases s.poisoned <;> rfl

theorem pad_at (v : Inv tr s) {n : Nat} {x : Seen} (hx : (hist tr).pads[n]? = some x) :
    ∃ y, s.pads[n]? = some y ∧ seen y = x := by
  rw [v.pads, List.getElem?_map] at hx
  cases hy : s.pads[n]? with
  | none => rw [hy] at hx; cases hx
  | some y => rw [hy] at hx; cases hx; exact ⟨y, rfl, rfl⟩

/-- A pad's task reads frames until it ended; the task panics if the frame is earlier than the first one, and otherwise pushes the
data, with the flag for frames of video that are not keyframes.  Whether the element is paused does not matter for reading. -/
theorem c125_frame (h : machine.Reach tr s) {n : Nat} {x : Seen} (hx : (hist tr).pads[n]? = some x) (f : Frame) :
    ((step s (.frame n f)).1 = .invalid ↔ x.over = true) ∧
    ((step s (.frame n f)).1 = .crashed ↔ x.over = false ∧ ∃ r, x.first = some r ∧ f.timestamp < r) ∧
    (x.over = false → (∀ r, x.first = some r → r ≤ f.timestamp) →
      ∃ b, (step s (.frame n f)).1 = .pushed b x.active ∧ b.data = f.payload ∧
        (b.delta = true ↔ x.kind = .video ∧ f.keyframe = false)) := by
  obtain ⟨y, hy, rfl⟩ := pad_at (inv_reach h) hx
  simp only [step, frame, hy, seen, relative]
  have hdelta : delta y.kind f = true ↔ y.kind = .video ∧ f.keyframe = false := by
    unfold delta
    cases y.kind <;> simp
  cases hr : y.reading
  · simp
  · cases hf : y.reference with
    | none => simp [hdelta]
    | some r =>
      by_cases hle : r ≤ f.timestamp
      · simp [hle, hdelta]
      · simp [hle]
        omega

/-- A task ends with its track, or panics if reading fails. -/
theorem c125_end (h : machine.Reach tr s) {n : Nat} {x : Seen} (hx : (hist tr).pads[n]? = some x) :
    (step s (.over n)).1 = (if x.over then .invalid else .ok) ∧ (step s (.broken n)).1 = if x.over then .invalid else .crashed := by
  obtain ⟨y, hy, rfl⟩ := pad_at (inv_reach h) hx
  simp only [step, finish, hy, seen]
  by_cases hr : y.reading = true
  · simp [hr]
  · simp [Bool.not_eq_true _ ▸ hr]

/-- There are no other tasks. -/
theorem c125_no_pad (h : machine.Reach tr s) {n : Nat} (hx : (hist tr).pads[n]? = none) (f : Frame) :
    (step s (.frame n f)).1 = .invalid ∧ (step s (.over n)).1 = .invalid ∧ (step s (.broken n)).1 = .invalid := by
  rw [(inv_reach h).pads, List.getElem?_map] at hx
  have : s.pads[n]? = none := by
    cases hy : s.pads[n]? with
    | none => rfl
    | some y => rw [hy] at hx; cases hx
  simp [step, frame, finish, this]

/-! ### The times -/

/-- What is known of the buffers of a pad. -/
structure Times (tr : Trace) (s : State) : Prop where
  /-- the reference is the time of the first frame -/
  ref : ∀ n, (s.pads[n]?.bind Pad.reference) = (sent n tr)[0]?.map fun e => e.1.timestamp
  times : ∀ n i e e0, (sent n tr)[i]? = some e → (sent n tr)[0]? = some e0 →
    e0.1.timestamp ≤ e.1.timestamp ∧
      e.2.pts = (if i = 0 then e.1.timestamp else e.1.timestamp - e0.1.timestamp) * 1000 % 2 ^ 64

theorem sent_snoc (n : Nat) (tr : Trace) (e : Op × Out) : sent n (tr ++ [e]) = sent n tr ++ sent n [e] := by
  simp [sent, List.filterMap_append]

theorem times_same {op : Op} {o : Out} (v : Times tr s) {s' : State}
    (hs : ∀ n : Nat, (s'.pads[n]?.bind Pad.reference) = (s.pads[n]?.bind Pad.reference)) (he : ∀ n, sent n [(op, o)] = []) :
    Times (tr ++ [(op, o)]) s' := by
  constructor
  · intro n
    rw [sent_snoc, he, List.append_nil, hs]
    exact v.ref n
  · intro n
    rw [sent_snoc, he, List.append_nil]
    exact v.times n

theorem set_ref {l : List Pad} {n : Nat} {x y : Pad} (hx : l[n]? = some x) (hr : y.reference = x.reference) (m : Nat) :
    ((l.set n y)[m]?.bind Pad.reference) = (l[m]?.bind Pad.reference) := by
  rw [List.getElem?_set]
  split
  · rename_i hm
    subst hm
    obtain ⟨hlt, he⟩ := List.getElem?_eq_some_iff.1 hx
    simp [hlt, he, hr]
  · rfl

theorem append_ref {l m : List Pad} (h : New m) (n : Nat) : ((l ++ m)[n]?.bind Pad.reference) = (l[n]?.bind Pad.reference) := by
  by_cases hn : n < l.length
  · rw [List.getElem?_append_left hn]
  · rw [List.getElem?_append_right (by omega), List.getElem?_eq_none (by omega : l.length ≤ n)]
    cases hx : m[n - l.length]? with
    | none => rfl
    | some x => exact (h x (List.mem_of_getElem? hx)).2.1

theorem map_ref {l : List Pad} (f : Pad → Pad) (hf : ∀ x, (f x).reference = x.reference) (n : Nat) :
    ((l.map f)[n]?.bind Pad.reference) = (l[n]?.bind Pad.reference) := by
  rw [List.getElem?_map]
  cases l[n]? with
  | none => rfl
  | some x => exact hf x

theorem times_step (v : Times tr s) (op : Op) : Times (tr ++ [(op, (step s op).1)]) (step s op).2 := by
  cases op with
  | setUrl b => simp only [step]; split <;> exact times_same v (fun _ => rfl) (fun _ => rfl)
  | start c =>
    simp only [step, start]
    split
    · exact times_same v (fun _ => rfl) (fun _ => rfl)
    · split
      · exact times_same v (fun _ => rfl) (fun _ => rfl)
      · split
        · exact times_same v (fun _ => rfl) (fun _ => rfl)
        · cases c with
          | none => exact times_same v (fun _ => rfl) (fun _ => rfl)
          | some c =>
            simp only
            rw [plans_eq]
            have hn := (addPads_spec (entries c) s.pads).1
            split
            · refine times_same v (fun n => ?_) (fun _ => rfl)
              exact (map_ref (fun x => { x with active := true }) (fun _ => rfl) n).trans (append_ref hn n)
            · exact times_same v (fun n => append_ref hn n) (fun _ => rfl)
  | stop =>
    simp only [step]
    split
    · exact times_same v (map_ref _ fun _ => rfl) (fun _ => rfl)
    · exact times_same v (fun _ => rfl) (fun _ => rfl)
  | over n =>
    simp only [step, finish]
    split
    · exact times_same v (fun _ => rfl) (fun _ => rfl)
    · rename_i x hx
      split
      · exact times_same v (fun _ => rfl) (fun _ => rfl)
      · exact times_same v (set_ref hx rfl) (fun _ => rfl)
  | broken n =>
    simp only [step, finish]
    split
    · exact times_same v (fun _ => rfl) (fun _ => rfl)
    · rename_i x hx
      split
      · exact times_same v (fun _ => rfl) (fun _ => rfl)
      · exact times_same v (set_ref hx rfl) (fun _ => rfl)
  | frame n f =>
    simp only [step, frame]
    split
    · exact times_same v (fun _ => rfl) (fun _ => rfl)
    · rename_i x hx
      split
      · exact times_same v (fun _ => rfl) (fun _ => rfl)
      · split
        · exact times_same v (set_ref hx rfl) (fun _ => rfl)
        · rename_i t ht
          have hs : ∀ m b a, sent m [(Op.frame n f, Out.pushed b a)] = if n = m then [(f, b)] else [] := by
            intro m b a
            by_cases hm : n = m <;> simp [sent, hm]
          have hlt := (List.getElem?_eq_some_iff.1 hx).1
          have hr := v.ref n
          rw [hx] at hr
          constructor
          · intro m
            rw [sent_snoc, hs, List.getElem?_set]
            by_cases hm : n = m
            · subst hm
              simp only [if_true, hlt]
              cases hl : sent n tr with
              | nil =>
                rw [hl] at hr
                simp only [Option.bind_some, List.getElem?_nil, Option.map_none] at hr
                simp [hr]
              | cons e l =>
                rw [hl] at hr
                simp only [Option.bind_some, List.getElem?_cons_zero, Option.map_some] at hr
                simp [hr]
            · simp only [hm, if_false, List.append_nil]
              exact v.ref m
          · intro m i e e0 he he0
            rw [sent_snoc, hs] at he he0
            by_cases hm : n = m
            · subst hm
              simp only [if_true] at he he0
              cases hl : sent n tr with
              | nil =>
                rw [hl] at hr he he0
                simp only [Option.bind_some, List.getElem?_nil, Option.map_none] at hr
                rw [hr] at ht
                cases ht
                match i, he with
                | 0, he =>
                  cases he
                  cases he0
                  exact ⟨Nat.le_refl _, rfl⟩
                | i + 1, he => simp at he
              | cons d l =>
                have hd : e0 = d := by rw [hl] at he0; cases he0; rfl
                rw [hl] at hr
                simp only [Option.bind_some, List.getElem?_cons_zero, Option.map_some] at hr
                by_cases hi : i < (sent n tr).length
                · rw [List.getElem?_append_left hi] at he
                  exact v.times n i e e0 he (by rw [hl, hd]; rfl)
                · rw [List.getElem?_append_right (by omega)] at he
                  have hz : i - (sent n tr).length = 0 := by
                    have := (List.getElem?_eq_some_iff.1 he).1
                    simpa using this
                  rw [hz] at he
                  cases he
                  have hi0 : i ≠ 0 := by rw [hl] at hi; simp at hi; omega
                  simp only [hr, relative] at ht
                  split at ht
                  · rename_i hle
                    cases ht
                    subst hd
                    exact ⟨hle, by rw [if_neg hi0]⟩
                  · cases ht
            · simp only [hm, if_false, List.append_nil] at he he0
              exact v.times m i e e0 he he0

theorem times_reach (h : machine.Reach tr s) : Times tr s :=
  Machine.Reach.induct (M := machine) (P := Times) ⟨fun _ => rfl, fun _ _ _ _ h => (nomatch h)⟩ (fun _ _ op _ ih => times_step ih op) h

/-- The first frame of the history is the first one that was pushed. -/
theorem c125_first (h : machine.Reach tr s) {n : Nat} {x : Seen} (hx : (hist tr).pads[n]? = some x) :
    x.first = (sent n tr)[0]?.map fun e => e.1.timestamp := by
  obtain ⟨y, hy, rfl⟩ := pad_at (inv_reach h) hx
  have := (times_reach h).ref n
  rw [hy] at this
  exact this

/-- The times of the buffers are those of the frames relative to the first one, but for the first one itself, whose time is
absolute; they are right up to 2^64 nanoseconds. -/
theorem c125_times_partial (h : machine.Reach tr s) (n i : Nat) {e e0 : Frame × Buffer} (he : (sent n tr)[i]? = some e)
    (h0 : (sent n tr)[0]? = some e0) :
    e0.1.timestamp ≤ e.1.timestamp ∧
      (i = 0 → e.1.timestamp * 1000 < 2 ^ 64 → e.2.pts = e.1.timestamp * 1000) ∧
      (0 < i → (e.1.timestamp - e0.1.timestamp) * 1000 < 2 ^ 64 → e.2.pts = (e.1.timestamp - e0.1.timestamp) * 1000) := by
  obtain ⟨h1, h2⟩ := (times_reach h).times n i e e0 he h0
  refine ⟨h1, fun hi hl => ?_, fun hi hl => ?_⟩
  · rw [h2, if_pos hi, Nat.mod_eq_of_lt hl]
  · rw [h2, if_neg (by omega), Nat.mod_eq_of_lt hl]

/-- No time is the one that means that there is none. -/
theorem c125_some_time (h : machine.Reach tr s) (n : Nat) {e : Frame × Buffer} (he : e ∈ sent n tr) : e.2.pts < 2 ^ 64 - 1 := by
  obtain ⟨i, hi⟩ := List.getElem?_of_mem he
  cases h0 : (sent n tr)[0]? with
  | none =>
    have := List.getElem?_eq_none_iff.1 h0
    have := (List.getElem?_eq_some_iff.1 hi).1
    omega
  | some e0 =>
    rw [((times_reach h).times n i e e0 hi h0).2]
    omega

/-! ## Examples -/

def exH264 (name : String) : Video :=
  ⟨⟨name, 2⟩, ⟨.h264 ⟨0x64, 0, 0x1f⟩, some [1, 2], some 640, some 480, none, none, none, none, none, none, none⟩⟩

def exVp8 (name : String) : Video :=
  ⟨⟨name, 2⟩, ⟨.vp8, none, some 640, some 480, none, none, none, none, none, none, none⟩⟩

def exOpus (name : String) : Audio := ⟨⟨name, 2⟩, ⟨.opus, 48000, 2, none, none⟩⟩

def exCatalog : Catalog := ⟨[exH264 "video"], [exOpus "audio"], none⟩

def exStart : List Op := [.setUrl true, .start (some exCatalog)]

example : (hist (machine.run exStart).1).paused = true ∧ names (hist (machine.run exStart).1) = ["video", "audio"] := by
  decide +kernel

example : Fits [] (entries exCatalog) := ⟨by simp [entries, exCatalog, Supported, exH264, exOpus], by decide +kernel⟩

/-- **The time of the first buffer is absolute**: the second one, a thirtieth of a second later, has a time before it. -/
theorem c125_jump : ∃ (tr : Trace) (s : State), machine.Reach tr s ∧
    (sent 0 tr).map (fun e => (e.1.timestamp, e.2.pts)) = [(10000000, 10000000000), (10033333, 33333000)] :=
  ⟨_, _, machine.reach_run (exStart ++ [.frame 0 ⟨10000000, true, [1]⟩, .frame 0 ⟨10033333, false, [2]⟩]), by decide +kernel⟩

/-- **A frame that is shown before the first one ends the task**: the track is not played any further. -/
theorem c125_early : ∃ (tr : Trace) (s : State), machine.Reach tr s ∧ (hist tr).paused = true ∧
    (step s (.frame 0 ⟨9966667, false, [2]⟩)).1 = .crashed ∧
    (step (step s (.frame 0 ⟨9966667, false, [2]⟩)).2 (.frame 0 ⟨10033333, false, [3]⟩)).1 = .invalid :=
  ⟨_, _, machine.reach_run (exStart ++ [.frame 0 ⟨10000000, true, [1]⟩]), by decide +kernel, by decide +kernel, by decide +kernel⟩

/-- **The element cannot be started again with the same broadcast**: the old pads are still there. -/
theorem c125_again : ∃ (tr : Trace) (s : State), machine.Reach tr s ∧ (hist tr).dead = false ∧ (hist tr).url = true ∧
    (step s (.start (some exCatalog))).1 = .panicked [] :=
  ⟨_, _, machine.reach_run (exStart ++ [.stop]), by decide +kernel, by decide +kernel, by decide +kernel⟩

/-- **Stopping does not end the tasks**: frames are still read. -/
theorem c125_stop : ∃ (tr : Trace) (s : State), machine.Reach tr s ∧ (hist tr).paused = false ∧
    ∃ b, (step s (.frame 0 ⟨0, true, [1]⟩)).1 = .pushed b false :=
  ⟨_, _, machine.reach_run (exStart ++ [.stop]), by decide +kernel, ⟨⟨0, false, [1]⟩, by decide +kernel⟩⟩

/-- **One track that is not supported makes the element panic**, although there is another one, which already has a pad. -/
theorem c125_unsupported : ∃ (tr : Trace) (s : State), machine.Reach tr s ∧ (hist tr).dead = true ∧ names (hist tr) = ["video"] :=
  ⟨_, _, machine.reach_run [.setUrl true, .start (some ⟨[exH264 "video", exVp8 "other"], [exOpus "audio"], none⟩)],
    by decide +kernel, by decide +kernel⟩

end Verif.Props.GstSource
