import Verif.Wasm.Publish
import Verif.Props.WasmWatch

/-!
# C121: publishing from the browser with hang-wasm
-/

set_option autoImplicit false

namespace Verif.Props.WasmPublish

open Verif Verif.Wasm.Publish

/-! ## Specification -/

/-- What follows from the history for one kind of track. -/
structure Told where
  /-- the number of the track that is open -/
  id : Option Nat
  /-- number of tracks opened so far -/
  used : Nat
  /-- its configuration is known -/
  config : Bool
  /-- the broadcast connected last since it was opened -/
  last : Option Nat
  /-- it is to be listed there -/
  due : Bool
  /-- the broadcast that waits for the configuration -/
  wait : Option Nat
  /-- all pairs of a broadcast and the track open when it was connected -/
  members : List (Nat × Nat)
  /-- number of broadcasts so far -/
  casts : Nat

def tell (k : Kind) (t : Told) : Op × Out → Told
  | (.init k' true, .did _) =>
    if k' = k then { t with id := some t.used, used := t.used + 1, config := false, last := none, due := false, wait := none } else t
  | (.close k', .did _) => if k' = k then { t with id := none, wait := none } else t
  | (.configured k', .did _) => if k' = k then { t with config := true } else t
  | (.encoded k', .did _) =>
    if k' = k then { t with due := t.due || t.config, wait := if t.config then none else t.wait } else t
  | (.established true, .did _) =>
    match t.id with
    | some i => { t with casts := t.casts + 1, last := some t.casts, due := t.config,
                         wait := if t.config then t.wait else some t.casts, members := t.members ++ [(t.casts, i)] }
    | none => { t with casts := t.casts + 1 }
  | _ => t

def told (k : Kind) (tr : Trace) : Told := tr.foldl (tell k) ⟨none, 0, false, none, false, none, [], 0⟩

/-- The URL that is being connected to. -/
def ask (u : Option Url) : Op × Out → Option Url
  | (.connect v, .did _) => v
  | (.established _, .did _) => none
  | (.established _, .err) => none
  | _ => u

def asked (tr : Trace) : Option Url := tr.foldl ask none

def pick (k : Kind) (p : List Nat × List Nat) : List Nat :=
  match k with
  | .video => p.1
  | .audio => p.2

/-- The catalogs after some events. -/
def paint (f : Nat → List Nat × List Nat) : List Event → Nat → List Nat × List Nat
  | [] => f
  | .catalog b v a :: l => paint (fun b' => if b' = b then (v, a) else f b') l
  | _ :: l => paint f l

/-- The events of an output. -/
def events : Out → List Event
  | .did l => l
  | _ => []

/-- The tracks in the last catalog of a broadcast. -/
def shown (k : Kind) (tr : Trace) (b : Nat) : List Nat := pick k (paint (fun _ => ([], [])) (tr.flatMap fun e => events e.2) b)

def Sound (tr : Trace) : Prop := ∀ e ∈ tr, e.2 ≠ .panic

/-! ## Lemmas -/

theorem told_snoc (k : Kind) (tr : Trace) (e : Op × Out) : told k (tr ++ [e]) = tell k (told k tr) e := by
  unfold told
  rw [List.foldl_append]
  rfl

theorem asked_snoc (tr : Trace) (e : Op × Out) : asked (tr ++ [e]) = ask (asked tr) e := by
  unfold asked
  rw [List.foldl_append]
  rfl

theorem paint_append (f : Nat → List Nat × List Nat) (l m : List Event) : paint f (l ++ m) = paint (paint f l) m := by
  induction l generalizing f with
  | nil => rfl
  | cons e l ih => cases e <;> exact ih _

theorem paint_none (f : Nat → List Nat × List Nat) (l : List Event) (h : ∀ b v a, Event.catalog b v a ∉ l) : paint f l = f := by
  induction l generalizing f with
  | nil => rfl
  | cons e l ih =>
    have hl : ∀ b v a, Event.catalog b v a ∉ l := fun b v a hm => h b v a (List.mem_cons_of_mem _ hm)
    cases e with
    | catalog b v a => exact absurd List.mem_cons_self (h b v a)
    | _ => exact ih _ hl

def sel (k : Kind) (c : Cast) : List Nat :=
  match k with
  | .video => c.video
  | .audio => c.audio

/-- The tracks a broadcast lists. -/
def listed (k : Kind) (s : State) (b : Nat) : List Nat :=
  match s.casts[b]? with
  | some c => sel k c
  | none => []

theorem listed_casts {s t : State} (h : t.casts = s.casts) (k : Kind) (b : Nat) : listed k t b = listed k s b := by
  unfold listed
  rw [h]

/-- The state agrees with the catalogs written. -/
def Agrees (f : Nat → List Nat × List Nat) (s : State) : Prop := ∀ b, f b = (listed .video s b, listed .audio s b)

/-- Everything but encoders, catalogs and tasks. -/
def Rest (s t : State) : Prop :=
  t.connect = s.connect ∧ t.broadcast = s.broadcast ∧ t.casts.length = s.casts.length ∧ t.dead = s.dead

theorem setEnc_rest (k : Kind) (s : State) (x : Option Enc) : Rest s (setEnc k s x) := by cases k <;> exact ⟨rfl, rfl, rfl, rfl⟩

theorem setEnc_casts (k : Kind) (s : State) (x : Option Enc) : (setEnc k s x).casts = s.casts := by cases k <;> rfl

theorem setEnc_tasks (k : Kind) (s : State) (x : Option Enc) : (setEnc k s x).tasks = s.tasks := by cases k <;> rfl

theorem setEnc_next (k k' : Kind) (s : State) (x : Option Enc) : nextId k' (setEnc k s x) = nextId k' s := by cases k <;> cases k' <;> rfl

theorem enc_same (k : Kind) (s : State) (x : Option Enc) : enc k (setEnc k s x) = x := by cases k <;> rfl

theorem enc_other {k k' : Kind} (h : k' ≠ k) (s : State) (x : Option Enc) : enc k' (setEnc k s x) = enc k' s := by
  cases k <;> cases k' <;> first | rfl | exact absurd rfl h

/-- Nothing changed for one kind. -/
def Same (k : Kind) (s t : State) : Prop :=
  enc k t = enc k s ∧ nextId k t = nextId k s ∧ (∀ b, listed k t b = listed k s b) ∧
    ∀ b i, (b, k, i) ∈ t.tasks ↔ (b, k, i) ∈ s.tasks

theorem Same.refl (k : Kind) (s : State) : Same k s s := ⟨rfl, rfl, fun _ => rfl, fun _ _ => Iff.rfl⟩

theorem Same.trans {k : Kind} {s t u : State} (h : Same k s t) (g : Same k t u) : Same k s u :=
  ⟨g.1.trans h.1, g.2.1.trans h.2.1, fun b => (g.2.2.1 b).trans (h.2.2.1 b), fun b i => (g.2.2.2 b i).trans (h.2.2.2 b i)⟩

theorem listed_set {s : State} {b : Nat} {c : Cast} (hc : s.casts[b]? = some c) (f : Cast → Cast) (k : Kind) (b' : Nat) :
    listed k { s with casts := s.casts.set b (f c) } b' = if b' = b then sel k (f c) else listed k s b' := by
  unfold listed
  dsimp only
  have hb : b < s.casts.length := (List.getElem?_eq_some_iff.1 hc).1
  by_cases h : b' = b
  · subst h
    rw [List.getElem?_set_self hb, if_pos rfl]
  · rw [List.getElem?_set_ne (fun e => h e.symm), if_neg h]

theorem setCast_spec (s : State) (b : Nat) (f : Cast → Cast) (hb : b < s.casts.length) :
    ∃ c, s.casts[b]? = some c ∧ (∀ k b', listed k (setCast s b f).2 b' = if b' = b then sel k (f c) else listed k s b') ∧
      (∀ g, Agrees g s → Agrees (paint g (setCast s b f).1) (setCast s b f).2) ∧ Rest s (setCast s b f).2 ∧
      (∀ k, enc k (setCast s b f).2 = enc k s) ∧ (∀ k, nextId k (setCast s b f).2 = nextId k s) ∧
      (setCast s b f).2.tasks = s.tasks ∧ ∀ e ∈ (setCast s b f).1, ∃ v a, e = .catalog b v a := by
  have hc : s.casts[b]? = some s.casts[b] := List.getElem?_eq_getElem hb
  refine ⟨s.casts[b], hc, ?_⟩
  unfold setCast
  rw [hc]
  dsimp only
  refine ⟨fun k b' => listed_set hc f k b', ?_, ⟨rfl, rfl, List.length_set .., rfl⟩, fun k => by cases k <;> rfl,
    fun k => by cases k <;> rfl, rfl, fun e he => ⟨_, _, List.mem_singleton.1 he⟩⟩
  intro g hg b'
  show (if b' = b then _ else g b') = _
  rw [listed_set hc f .video b', listed_set hc f .audio b']
  split
  · rfl
  · exact hg b'

/-- What publishing the track of an encoder does. -/
structure Pub (k : Kind) (b : Nat) (e : Enc) (s t : State) : Prop where
  next : nextId k t = nextId k s
  known : e.config = true → enc k t = some e ∧ (∀ b', listed k t b' = if b' = b then listed k s b' ++ [e.id] else listed k s b') ∧
    ∀ b' i, (b', k, i) ∈ t.tasks ↔ (b', k, i) ∈ s.tasks ∨ (b' = b ∧ i = e.id)
  unknown : e.config = false → enc k t = some { e with pending := some b } ∧ (∀ b', listed k t b' = listed k s b') ∧
    ∀ b' i, (b', k, i) ∈ t.tasks ↔ (b', k, i) ∈ s.tasks

theorem publishTo_spec (k : Kind) (s : State) (b : Nat) (hb : b < s.casts.length) :
    (enc k s = none → Same k s (publishTo k s b).2) ∧ (∀ e, enc k s = some e → Pub k b e s (publishTo k s b).2) ∧
      (∀ k', k' ≠ k → Same k' s (publishTo k s b).2) ∧ Rest s (publishTo k s b).2 ∧
      (∀ g, Agrees g s → Agrees (paint g (publishTo k s b).1) (publishTo k s b).2) ∧
      (∀ x ∈ (publishTo k s b).1, ∃ v a, x = .catalog b v a) ∧
      ((publishTo k s b).2.tasks = s.tasks ∨ ∃ e, enc k s = some e ∧ (publishTo k s b).2.tasks = s.tasks ++ [(b, k, e.id)]) := by
  unfold publishTo
  cases he : enc k s with
  | none =>
    exact ⟨fun _ => Same.refl k s, fun e h => (nomatch h), fun k' _ => Same.refl k' s, ⟨rfl, rfl, rfl, rfl⟩, fun g hg => hg,
      fun x hx => (nomatch hx), .inl rfl⟩
  | some e =>
    dsimp only
    cases hc : e.config with
    | true =>
      rw [if_pos rfl]
      obtain ⟨c, h0, h1, h2, h3, h4, h5, h6, h7⟩ := setCast_spec s b (fun c => c.add k e.id) hb
      have hl : ∀ k' b', listed k' { (setCast s b fun c => c.add k e.id).2 with
          tasks := (setCast s b fun c => c.add k e.id).2.tasks ++ [(b, k, e.id)] } b' = listed k' (setCast s b fun c => c.add k e.id).2 b' :=
        fun k' b' => listed_casts rfl k' b'
      have hsel : ∀ k', k' ≠ k → sel k' (c.add k e.id) = sel k' c := by
        intro k' hk
        cases k <;> cases k' <;> first | rfl | exact absurd rfl hk
      have hself : sel k (c.add k e.id) = sel k c ++ [e.id] := by cases k <;> rfl
      have hsc : ∀ k', listed k' s b = sel k' c := by
        intro k'
        unfold listed
        rw [h0]
      refine ⟨fun h => (nomatch h), ?_, ?_, h3, ?_, h7, .inr ⟨e, rfl, by rw [← h6]⟩⟩
      · intro e' h
        cases h
        refine ⟨?_, fun _ => ⟨?_, ?_, ?_⟩, fun h => ?_⟩
        · exact (by cases k <;> rfl : nextId k _ = nextId k _).trans (h5 k)
        · refine Eq.trans ?_ ((h4 k).trans he)
          cases k <;> rfl
        · intro b'
          rw [hl, h1]
          split
          · rename_i hbb
            rw [hbb, hsc, hself]
          · rfl
        · intro b' i
          dsimp only
          rw [h6]
          simp
        · rw [hc] at h
          cases h
      · intro k' hk
        refine ⟨?_, ?_, ?_, ?_⟩
        · refine Eq.trans ?_ (h4 k')
          cases k' <;> rfl
        · exact (by cases k' <;> rfl : nextId k' _ = nextId k' _).trans (h5 k')
        · intro b'
          rw [hl, h1]
          split
          · rename_i hbb
            rw [hbb, hsc, hsel k' hk]
          · rfl
        · intro b' i
          dsimp only
          rw [h6]
          simp [hk]
      · intro g hg b'
        rw [hl, hl]
        exact h2 g hg b'
    | false =>
      rw [if_neg (by simp)]
      refine ⟨fun h => (nomatch h), ?_, ?_, setEnc_rest _ _ _, ?_, fun x hx => (nomatch hx), .inl (setEnc_tasks _ _ _)⟩
      · intro e' h
        cases h
        refine ⟨setEnc_next _ _ _ _, fun h => ?_, fun _ => ⟨?_, fun b' => listed_casts (setEnc_casts _ _ _) k b', fun b' i => by rw [setEnc_tasks]⟩⟩
        · rw [hc] at h
          cases h
        · rw [enc_same, hc]
      · intro k' hk
        exact ⟨enc_other hk _ _, setEnc_next _ _ _ _, fun b' => listed_casts (setEnc_casts _ _ _) k' b', fun b' i => by rw [setEnc_tasks]⟩
      · intro g hg b'
        dsimp only
        rw [listed_casts (setEnc_casts _ _ _), listed_casts (setEnc_casts _ _ _)]
        exact hg b'

/-- What is always true of the state alone. -/
structure Basic (s : State) : Prop where
  none : s.broadcast = Option.none
  nodup : s.tasks.Nodup
  bound : ∀ t ∈ s.tasks, t.1 < s.casts.length
  pend : ∀ k e b, enc k s = some e → e.pending = some b → b < s.casts.length ∧ (b, k, e.id) ∉ s.tasks

/-- What a step does to one kind of track. -/
inductive Chg (k : Kind) (s t : State) : Op → Out → Prop
  | same (op : Op) (o : Out) : Same k s t → t.casts.length = s.casts.length → (∀ x, tell k x (op, o) = x) → Chg k s t op o
  | opened (l : List Event) : enc k t = some ⟨nextId k s, false, none⟩ → nextId k t = nextId k s + 1 →
      (∀ b, listed k t b = listed k s b) → (∀ b i, (b, k, i) ∈ t.tasks ↔ (b, k, i) ∈ s.tasks) → t.casts.length = s.casts.length →
      Chg k s t (.init k true) (.did l)
  | closed (l : List Event) : enc k t = none → nextId k t = nextId k s →
      (∀ b, listed k t b = listed k s b) → (∀ b i, (b, k, i) ∈ t.tasks ↔ (b, k, i) ∈ s.tasks) → t.casts.length = s.casts.length →
      Chg k s t (.close k) (.did l)
  | configured (e : Enc) (l : List Event) : enc k s = some e → enc k t = some { e with config := true } → nextId k t = nextId k s →
      (∀ b, listed k t b = listed k s b) → (∀ b i, (b, k, i) ∈ t.tasks ↔ (b, k, i) ∈ s.tasks) → t.casts.length = s.casts.length →
      Chg k s t (.configured k) (.did l)
  | joined (l : List Event) : t.casts.length = s.casts.length + 1 → (enc k s = none → Same k s t) →
      (∀ e, enc k s = some e → Pub k s.casts.length e s t) → Chg k s t (.established true) (.did l)
  | idle (e : Enc) (l : List Event) : enc k s = some e → e.pending = none → Same k s t → t.casts.length = s.casts.length →
      Chg k s t (.encoded k) (.did l)
  | encoded (e : Enc) (b : Nat) (l : List Event) : enc k s = some e → e.pending = some b →
      Pub k b { e with pending := none } s t → t.casts.length = s.casts.length → Chg k s t (.encoded k) (.did l)
  | reaped (b i : Nat) (l : List Event) : (enc k s).map (·.id) ≠ some i → (b, k, i) ∈ s.tasks → enc k t = enc k s →
      nextId k t = nextId k s → (∀ b', listed k t b' = if b' = b then (listed k s b').filter (· ≠ i) else listed k s b') →
      (∀ b' i', (b', k, i') ∈ t.tasks ↔ (b', k, i') ∈ s.tasks ∧ ¬ (b' = b ∧ i' = i)) → t.casts.length = s.casts.length →
      Chg k s t (.reap b k i) (.did l)

theorem overs_no_catalog (s t : State) (b : Nat) (v a : List Nat) : Event.catalog b v a ∉ overs s t := by
  unfold overs
  intro h
  obtain ⟨_, _, h⟩ := List.mem_map.1 h
  cases h

theorem paint_overs (f : Nat → List Nat × List Nat) (l : List Event) (s t : State) : paint f (l ++ overs s t) = paint f l := by
  rw [paint_append]
  exact paint_none _ _ (overs_no_catalog s t)

theorem same_of {k : Kind} {s t : State} (h1 : enc k t = enc k s) (h2 : nextId k t = nextId k s) (h3 : t.casts = s.casts)
    (h4 : t.tasks = s.tasks) : Same k s t :=
  ⟨h1, h2, fun b => listed_casts h3 k b, fun b i => by rw [h4]⟩

theorem agrees_of {f : Nat → List Nat × List Nat} {s t : State} (h : Agrees f s) (h3 : t.casts = s.casts) : Agrees f t := by
  intro b
  rw [listed_casts h3, listed_casts h3]
  exact h b

theorem bump_enc (k k' : Kind) (s : State) : enc k' (bumpId k s) = enc k' s := by cases k <;> cases k' <;> rfl

theorem bump_casts (k : Kind) (s : State) : (bumpId k s).casts = s.casts := by cases k <;> rfl

theorem bump_tasks (k : Kind) (s : State) : (bumpId k s).tasks = s.tasks := by cases k <;> rfl

theorem bump_next (k k' : Kind) (s : State) : nextId k' (bumpId k s) = if k = k' then nextId k' s + 1 else nextId k' s := by
  cases k <;> cases k' <;> rfl

theorem openEnc_eq {s : State} (h : s.broadcast = none) (k : Kind) :
    openEnc k s = ([], bumpId k (setEnc k s (some ⟨nextId k s, false, none⟩))) := by
  unfold openEnc
  have : (bumpId k (setEnc k s (some ⟨nextId k s, false, none⟩))).broadcast = none := by cases k <;> exact h
  dsimp only
  rw [this]

/-- A new broadcast has no tracks. -/
theorem same_new (k : Kind) (s : State) : Same k s { s with connect := none, casts := s.casts ++ [⟨[], []⟩] } := by
  refine ⟨by cases k <;> rfl, by cases k <;> rfl, fun b => ?_, fun _ _ => Iff.rfl⟩
  unfold listed
  dsimp only
  by_cases hb : b < s.casts.length
  · rw [List.getElem?_append_left hb]
  · rw [List.getElem?_append_right (by omega)]
    by_cases hb2 : b = s.casts.length
    · subst hb2
      rw [List.getElem?_eq_none (Nat.le_refl _)]
      cases k <;> simp [sel]
    · rw [List.getElem?_eq_none (by simp; omega), List.getElem?_eq_none (by omega)]

theorem Pub.trans {k : Kind} {b : Nat} {e : Enc} {s s1 t1 t : State} (h : Same k s s1) (p : Pub k b e s1 t1) (g : Same k t1 t) :
    Pub k b e s t := by
  obtain ⟨h1, h2, h3, h4⟩ := h
  obtain ⟨g1, g2, g3, g4⟩ := g
  refine ⟨g2.trans (p.next.trans h2), fun hc => ?_, fun hc => ?_⟩
  · obtain ⟨q1, q2, q3⟩ := p.known hc
    refine ⟨g1.trans q1, fun b' => ?_, fun b' i => ?_⟩
    · rw [g3, q2, h3]
    · rw [g4, q3, h4]
  · obtain ⟨q1, q2, q3⟩ := p.unknown hc
    refine ⟨g1.trans q1, fun b' => ?_, fun b' i => ?_⟩
    · rw [g3, q2, h3]
    · rw [g4, q3, h4]

theorem tell_other_init {k k' : Kind} (h : k' ≠ k) (b : Bool) (l : List Event) (x : Told) : tell k x (.init k' b, .did l) = x := by
  cases b
  · rfl
  · exact if_neg h

theorem chg_step {s : State} (v : Basic s) (hd : s.dead = false) (op : Op) (k : Kind) :
    Chg k s (step s op).2 op (step s op).1 := by
  unfold step
  rw [if_neg (by simp [hd])]
  cases op with
  | connect u => exact .same _ _ (same_of (by cases k <;> rfl) (by cases k <;> rfl) rfl rfl) rfl fun _ => rfl
  | established ok =>
    dsimp only
    cases hc : s.connect with
    | none => exact .same _ _ (Same.refl k s) rfl fun x => by cases ok <;> rfl
    | some u =>
      dsimp only
      cases ok with
      | false => exact .same _ _ (same_of (by cases k <;> rfl) (by cases k <;> rfl) rfl rfl) rfl fun _ => rfl
      | true =>
        rw [if_pos rfl]
        cases hh : u.http with
        | false => exact .same _ _ (Same.refl k s) rfl fun x => rfl
        | true =>
          rw [if_pos rfl]
          unfold connected
          split
          · rename_i r hr
            split at hr
            · rename_i p hp
              cases hr
              refine .joined _ ?_ ?_ ?_
              all_goals
                dsimp only [did]
                obtain ⟨a1, a2, a3, a4, _, _, _⟩ := publishTo_spec .video
                  { s with connect := none, casts := s.casts ++ [⟨[], []⟩] } s.casts.length (by simp)
                obtain ⟨b1, b2, b3, b4, _, _, _⟩ := publishTo_spec .audio
                  (publishTo .video { s with connect := none, casts := s.casts ++ [⟨[], []⟩] } s.casts.length).2 s.casts.length
                  (by rw [a4.2.2.1]; simp)
              · rw [b4.2.2.1, a4.2.2.1]
                simp
              · have base := same_new k s
                intro he
                cases k with
                | video => exact (base.trans (a1 he)).trans (b3 .video (by decide))
                | audio =>
                  have c := base.trans (a3 .audio (by decide))
                  exact c.trans (b1 (c.1.trans he))
              · have base := same_new k s
                intro e he
                cases k with
                | video =>
                  exact Pub.trans base (a2 e (base.1.trans he)) (b3 .video (by decide))
                | audio =>
                  have c := base.trans (a3 .audio (by decide))
                  exact Pub.trans c (b2 e (c.1.trans he)) (Same.refl _ _)
            · cases hr
          · exact .same _ _ (same_of (by cases k <;> rfl) (by cases k <;> rfl) rfl rfl) rfl fun _ => rfl
  | init k' ok =>
    dsimp only
    cases ok with
    | false => exact .same _ _ (Same.refl k s) rfl fun x => rfl
    | true =>
      rw [if_pos rfl, openEnc_eq v.none]
      dsimp only [did]
      by_cases hk : k' = k
      · subst hk
        refine .opened _ ?_ ?_ ?_ ?_ ?_
        · rw [bump_enc, enc_same]
        · rw [bump_next, if_pos rfl, setEnc_next]
        · exact fun b => listed_casts ((bump_casts _ _).trans (setEnc_casts _ _ _)) _ b
        · intro b i
          rw [bump_tasks, setEnc_tasks]
        · rw [bump_casts, setEnc_casts]
      · refine .same _ _ (same_of ?_ ?_ ((bump_casts _ _).trans (setEnc_casts _ _ _)) ((bump_tasks _ _).trans (setEnc_tasks _ _ _))) ?_
          (tell_other_init hk _ _)
        · rw [bump_enc, enc_other (fun h => hk h.symm)]
        · rw [bump_next, if_neg hk, setEnc_next]
        · rw [bump_casts, setEnc_casts]
  | input k' =>
    dsimp only
    cases enc k' s <;> exact .same _ _ (Same.refl k s) rfl fun _ => rfl
  | close k' =>
    dsimp only [did]
    by_cases hk : k' = k
    · subst hk
      exact .closed _ (enc_same _ _ _) (setEnc_next _ _ _ _) (fun b => listed_casts (setEnc_casts _ _ _) _ b)
        (fun b i => by rw [setEnc_tasks]) (by rw [setEnc_casts])
    · exact .same _ _ (same_of (enc_other (fun h => hk h.symm) _ _) (setEnc_next _ _ _ _) (setEnc_casts _ _ _) (setEnc_tasks _ _ _))
        (by rw [setEnc_casts]) fun x => if_neg hk
  | configured k' =>
    dsimp only
    cases he : enc k' s with
    | none => exact .same _ _ (Same.refl k s) rfl fun _ => rfl
    | some e =>
      dsimp only
      by_cases hk : k' = k
      · subst hk
        exact .configured e _ he (enc_same _ _ _) (setEnc_next _ _ _ _) (fun b => listed_casts (setEnc_casts _ _ _) _ b)
          (fun b i => by rw [setEnc_tasks]) (by rw [setEnc_casts])
      · exact .same _ _ (same_of (enc_other (fun h => hk h.symm) _ _) (setEnc_next _ _ _ _) (setEnc_casts _ _ _) (setEnc_tasks _ _ _))
          (by rw [setEnc_casts]) fun x => if_neg hk
  | encoded k' =>
    dsimp only
    cases he : enc k' s with
    | none => exact .same _ _ (Same.refl k s) rfl fun _ => rfl
    | some e =>
      dsimp only [did, encoded]
      cases hp : e.pending with
      | none =>
        dsimp only
        have hset : ({ id := e.id, config := e.config, pending := none } : Enc) = e := by rw [← hp]
        by_cases hk : k' = k
        · subst hk
          exact .idle e _ he hp (same_of ((enc_same _ _ _).trans (by rw [hset, he])) (setEnc_next _ _ _ _) (setEnc_casts _ _ _)
            (setEnc_tasks _ _ _)) (by rw [setEnc_casts])
        · exact .same _ _ (same_of (enc_other (fun h => hk h.symm) _ _) (setEnc_next _ _ _ _) (setEnc_casts _ _ _) (setEnc_tasks _ _ _))
            (by rw [setEnc_casts]) fun x => if_neg hk
      | some b =>
        dsimp only
        obtain ⟨hb, _⟩ := v.pend k' e b he hp
        obtain ⟨a1, a2, a3, a4, _, _, _⟩ := publishTo_spec k' (setEnc k' s (some { id := e.id, config := e.config, pending := none })) b
          (by rw [setEnc_casts]; exact hb)
        by_cases hk : k' = k
        · subst hk
          obtain ⟨p1, p2, p3⟩ := a2 _ (enc_same _ _ _)
          refine .encoded e b _ he hp ⟨p1.trans (setEnc_next _ _ _ _), fun hc => ?_, fun hc => ?_⟩ (a4.2.2.1.trans (by rw [setEnc_casts]))
          · obtain ⟨q1, q2, q3⟩ := p2 hc
            refine ⟨q1, fun b' => (q2 b').trans ?_, fun b' i => (q3 b' i).trans (by rw [setEnc_tasks])⟩
            rw [listed_casts (setEnc_casts _ _ _)]
          · obtain ⟨q1, q2, q3⟩ := p3 hc
            exact ⟨q1, fun b' => (q2 b').trans (listed_casts (setEnc_casts _ _ _) _ _), fun b' i => (q3 b' i).trans (by rw [setEnc_tasks])⟩
        · refine .same _ _ (Same.trans (same_of (enc_other (fun h => hk h.symm) _ _) (setEnc_next _ _ _ _) (setEnc_casts _ _ _)
            (setEnc_tasks _ _ _)) (a3 k (fun h => hk h.symm))) (a4.2.2.1.trans (by rw [setEnc_casts])) fun x => if_neg hk
  | reap b k' i =>
    dsimp only
    unfold reap
    by_cases hm : (b, k', i) ∈ s.tasks
    · rw [if_pos hm]
      by_cases hi : (enc k' s).map (·.id) = some i
      · rw [if_pos hi]
        exact .same _ _ (Same.refl k s) rfl fun _ => rfl
      · rw [if_neg hi]
        dsimp only [did]
        obtain ⟨c, h0, h1, _, h3, h4, h5, h6, _⟩ := setCast_spec { s with tasks := s.tasks.erase (b, k', i) } b
          (fun c => c.remove k' i) (v.bound _ hm)
        have hsc : ∀ k, listed k s b = sel k c := by
          intro k
          unfold listed
          rw [h0]
        have hmem : ∀ b' k i', (b', k, i') ∈ s.tasks.erase (b, k', i) ↔ (b', k, i') ≠ (b, k', i) ∧ (b', k, i') ∈ s.tasks :=
          fun b' k i' => List.Nodup.mem_erase_iff v.nodup
        by_cases hk : k' = k
        · subst hk
          refine .reaped b i _ hi hm ((h4 k').trans (by cases k' <;> rfl)) ((h5 k').trans (by cases k' <;> rfl)) ?_ ?_ h3.2.2.1
          · intro b'
            rw [h1]
            split
            · rename_i hb
              rw [hb, hsc]
              cases k' <;> rfl
            · exact listed_casts rfl _ _
          · intro b' i'
            rw [h6]
            dsimp only
            rw [hmem]
            simp
            exact And.comm
        · refine .same _ _ ⟨(h4 k).trans (by cases k <;> rfl), (h5 k).trans (by cases k <;> rfl), ?_, ?_⟩ h3.2.2.1 fun _ => rfl
          · intro b'
            rw [h1]
            split
            · rename_i hb
              rw [hb, hsc]
              cases k' <;> cases k <;> first | rfl | exact absurd rfl hk
            · exact listed_casts rfl _ _
          · intro b' i'
            rw [h6]
            dsimp only
            rw [hmem]
            exact ⟨And.right, fun h => ⟨fun e => hk (by cases e; rfl), h⟩⟩
    · rw [if_neg hm]
      exact .same _ _ (Same.refl k s) rfl fun _ => rfl

/-! ### Invariant -/

/-- One kind of track against the history. -/
structure Core (k : Kind) (t : Told) (s : State) : Prop where
  id : (enc k s).map (·.id) = t.id
  used : nextId k s = t.used
  casts : s.casts.length = t.casts
  config : ∀ e, enc k s = some e → e.config = t.config
  wait : ∀ e, enc k s = some e → e.pending = t.wait
  task : ∀ b i, (b, k, i) ∈ s.tasks ↔ i ∈ listed k s b
  member : ∀ b i, i ∈ listed k s b → (b, i) ∈ t.members
  small : ∀ b i, (b, i) ∈ t.members → b < t.casts ∧ i < t.used
  fresh : ∀ i, t.id = some i → i < t.used
  pend : ∀ e b, enc k s = some e → e.pending = some b → (b, e.id) ∈ t.members ∧ e.id ∉ listed k s b
  late : ∀ i, t.id = some i → t.last = none → ∀ b, (b, i) ∉ t.members
  last : ∀ i b, t.id = some i → t.last = some b → i ∈ listed k s b ∨ t.wait = some b
  due : ∀ i b, t.id = some i → t.last = some b → t.due = true → i ∈ listed k s b
  idle : t.id = none → t.wait = none

theorem listed_bound {k : Kind} {s : State} {b i : Nat} (h : i ∈ listed k s b) : b < s.casts.length := by
  unfold listed at h
  cases hc : s.casts[b]? with
  | none => rw [hc] at h; cases h
  | some c => exact (List.getElem?_eq_some_iff.1 hc).1

theorem core_step {k : Kind} {tr : Trace} {s t : State} {op : Op} {o : Out} (v : Core k (told k tr) s) (h : Chg k s t op o) :
    Core k (told k (tr ++ [(op, o)])) t := by
  rw [told_snoc]
  generalize told k tr = x at v
  cases h with
  | same _ _ hs hl ht =>
    rw [ht]
    obtain ⟨h1, h2, h3, h4⟩ := hs
    refine ⟨h1 ▸ v.id, h2.trans v.used, hl.trans v.casts, fun e he => v.config e (h1 ▸ he), fun e he => v.wait e (h1 ▸ he),
      fun b i => by rw [h4, h3]; exact v.task b i, fun b i => by rw [h3]; exact v.member b i, v.small, v.fresh,
      fun e b he hp => by rw [h3]; exact v.pend e b (h1 ▸ he) hp, v.late, fun i b => by rw [h3]; exact v.last i b,
      fun i b => by rw [h3]; exact v.due i b, v.idle⟩
  | opened l h1 h2 h3 h4 h5 =>
    have e1 : tell k x (.init k true, .did l) =
      { x with id := some x.used, used := x.used + 1, config := false, last := none, due := false, wait := none } := if_pos rfl
    rw [e1]
    refine ⟨by rw [h1, v.used]; rfl, by rw [h2, v.used], h5.trans v.casts, ?_, ?_, fun b i => by rw [h4, h3]; exact v.task b i,
      fun b i => by rw [h3]; exact v.member b i, ?_, ?_, ?_, ?_, ?_, ?_, ?_⟩
    · intro e he
      rw [h1] at he
      cases he
      rfl
    · intro e he
      rw [h1] at he
      cases he
      rfl
    · intro b i hm
      exact ⟨(v.small b i hm).1, Nat.lt_succ_of_lt (v.small b i hm).2⟩
    · intro i hi
      cases hi
      exact Nat.lt_succ_self _
    · intro e b he hp
      rw [h1] at he
      cases he
      cases hp
    · intro i hi _ b hm
      cases hi
      exact Nat.lt_irrefl _ (v.small b _ hm).2
    · intro i b _ hl
      cases hl
    · intro i b _ hl
      cases hl
    · intro hn
      cases hn
  | closed l h1 h2 h3 h4 h5 =>
    have e1 : tell k x (.close k, .did l) = { x with id := none, wait := none } := if_pos rfl
    rw [e1]
    refine ⟨by rw [h1]; rfl, h2.trans v.used, h5.trans v.casts, ?_, ?_, fun b i => by rw [h4, h3]; exact v.task b i,
      fun b i => by rw [h3]; exact v.member b i, v.small, fun i hi => (nomatch hi), ?_, fun i hi => (nomatch hi), fun i b hi => (nomatch hi),
      fun i b hi => (nomatch hi), fun _ => rfl⟩
    · intro e he
      rw [h1] at he
      cases he
    · intro e he
      rw [h1] at he
      cases he
    · intro e b he
      rw [h1] at he
      cases he
  | configured e l h0 h1 h2 h3 h4 h5 =>
    have e1 : tell k x (.configured k, .did l) = { x with config := true } := if_pos rfl
    rw [e1]
    refine ⟨by rw [h1, ← v.id, h0]; rfl, h2.trans v.used, h5.trans v.casts, ?_, ?_, fun b i => by rw [h4, h3]; exact v.task b i,
      fun b i => by rw [h3]; exact v.member b i, v.small, v.fresh, ?_, v.late, fun i b => by rw [h3]; exact v.last i b,
      fun i b => by rw [h3]; exact v.due i b, v.idle⟩
    · intro e' he
      rw [h1] at he
      cases he
      rfl
    · intro e' he
      rw [h1] at he
      cases he
      exact v.wait e h0
    · intro e' b he hp
      rw [h1] at he
      cases he
      rw [h3]
      exact v.pend e b h0 hp
  | joined l hl hn hp =>
    cases he : enc k s with
    | none =>
      have hi : x.id = none := by rw [← v.id, he]; rfl
      have e1 : tell k x (.established true, .did l) = { x with casts := x.casts + 1 } := by
        unfold tell
        dsimp only
        rw [hi]
      rw [e1]
      obtain ⟨h1, h2, h3, h4⟩ := hn he
      refine ⟨h1 ▸ v.id, h2.trans v.used, by rw [hl, v.casts], fun e he => v.config e (h1 ▸ he), fun e he => v.wait e (h1 ▸ he),
        fun b i => by rw [h4, h3]; exact v.task b i, fun b i => by rw [h3]; exact v.member b i,
        fun b i hm => ⟨Nat.lt_succ_of_lt (v.small b i hm).1, (v.small b i hm).2⟩, v.fresh,
        fun e b he hp => by rw [h3]; exact v.pend e b (h1 ▸ he) hp, v.late, fun i b => by rw [h3]; exact v.last i b,
        fun i b => by rw [h3]; exact v.due i b, v.idle⟩
    | some e =>
      have hi : x.id = some e.id := by rw [← v.id, he]; rfl
      have e1 : tell k x (.established true, .did l) =
          { x with casts := x.casts + 1, last := some x.casts, due := x.config,
                   wait := if x.config then x.wait else some x.casts, members := x.members ++ [(x.casts, e.id)] } := by
        unfold tell
        dsimp only
        rw [hi]
      rw [e1]
      have p := hp e he
      have hc := v.config e he
      rw [v.casts] at p
      cases hcc : x.config with
      | true =>
        rw [hcc] at hc
        obtain ⟨h1, h2, h3⟩ := p.known hc
        have hmem : ∀ b i, i ∈ listed k t b ↔ i ∈ listed k s b ∨ (b = x.casts ∧ i = e.id) := by
          intro b i
          rw [h2]
          split
          · rename_i hb
            simp [hb]
          · rename_i hb
            simp [hb]
        refine ⟨by rw [h1, ← v.id, he], p.next.trans v.used, by rw [hl, v.casts], ?_, ?_, ?_, ?_, ?_, v.fresh, ?_, ?_, ?_, ?_, ?_⟩
        · intro e' he'
          rw [h1] at he'
          cases he'
          exact hc
        · intro e' he'
          rw [h1] at he'
          cases he'
          dsimp only
          rw [if_pos rfl]
          exact v.wait e he
        · intro b i
          rw [h3, hmem, v.task]
        · intro b i hm
          rcases (hmem b i).1 hm with hm | ⟨rfl, rfl⟩
          · exact List.mem_append_left _ (v.member b i hm)
          · exact List.mem_append_right _ (List.mem_singleton.2 rfl)
        · intro b i hm
          rcases List.mem_append.1 hm with hm | hm
          · exact ⟨Nat.lt_succ_of_lt (v.small b i hm).1, (v.small b i hm).2⟩
          · cases List.mem_singleton.1 hm
            exact ⟨Nat.lt_succ_self _, v.fresh _ hi⟩
        · intro e' b he' hpp
          rw [h1] at he'
          cases he'
          obtain ⟨q1, q2⟩ := v.pend e b he hpp
          refine ⟨List.mem_append_left _ q1, fun hm => ?_⟩
          rcases (hmem _ _).1 hm with hm | ⟨rfl, _⟩
          · exact q2 hm
          · exact Nat.lt_irrefl _ (v.small _ _ q1).1
        · intro i _ hl
          cases hl
        · intro i b hi' hl
          cases hl
          dsimp only at hi'
          rw [hi] at hi'
          cases hi'
          exact .inl ((hmem _ _).2 (.inr ⟨rfl, rfl⟩))
        · intro i b hi' hl _
          cases hl
          dsimp only at hi'
          rw [hi] at hi'
          cases hi'
          exact (hmem _ _).2 (.inr ⟨rfl, rfl⟩)
        · intro hn
          dsimp only at hn
          rw [hi] at hn
          cases hn
      | false =>
        rw [hcc] at hc
        obtain ⟨h1, h2, h3⟩ := p.unknown hc
        refine ⟨by rw [h1, ← v.id, he]; rfl, p.next.trans v.used, by rw [hl, v.casts], ?_, ?_, ?_, ?_, ?_, v.fresh, ?_, ?_, ?_, ?_, ?_⟩
        · intro e' he'
          rw [h1] at he'
          cases he'
          exact hc
        · intro e' he'
          rw [h1] at he'
          cases he'
          dsimp only
          rw [if_neg (by simp)]
        · intro b i
          rw [h3, h2, v.task]
        · intro b i hm
          rw [h2] at hm
          exact List.mem_append_left _ (v.member b i hm)
        · intro b i hm
          rcases List.mem_append.1 hm with hm | hm
          · exact ⟨Nat.lt_succ_of_lt (v.small b i hm).1, (v.small b i hm).2⟩
          · cases List.mem_singleton.1 hm
            exact ⟨Nat.lt_succ_self _, v.fresh _ hi⟩
        · intro e' b he' hpp
          rw [h1] at he'
          cases he'
          cases hpp
          refine ⟨List.mem_append_right _ (List.mem_singleton.2 rfl), fun hm => ?_⟩
          rw [h2] at hm
          exact Nat.lt_irrefl _ (v.small _ _ (v.member _ _ hm)).1
        · intro i _ hl
          cases hl
        · intro i b hi' hl
          cases hl
          refine .inr ?_
          dsimp only
          rw [if_neg (by simp)]
        · intro i b _ _ hd
          cases hd
        · intro hn
          dsimp only at hn
          rw [hi] at hn
          cases hn
  | idle e l h0 hp hs hl =>
    have e1 : tell k x (.encoded k, .did l) = { x with due := x.due || x.config, wait := if x.config then none else x.wait } := if_pos rfl
    have hw : x.wait = none := (v.wait e h0).symm.trans hp
    have e2 : (if x.config then none else x.wait) = x.wait := by rw [hw]; split <;> rfl
    rw [e1, e2]
    obtain ⟨h1, h2, h3, h4⟩ := hs
    refine ⟨h1 ▸ v.id, h2.trans v.used, hl.trans v.casts, fun e he => v.config e (h1 ▸ he), fun e he => v.wait e (h1 ▸ he),
      fun b i => by rw [h4, h3]; exact v.task b i, fun b i => by rw [h3]; exact v.member b i, v.small, v.fresh,
      fun e b he hp => by rw [h3]; exact v.pend e b (h1 ▸ he) hp, v.late, fun i b => by rw [h3]; exact v.last i b,
      fun i b hi hl _ => ?_, v.idle⟩
    rw [h3]
    rcases v.last i b hi hl with hm | hm
    · exact hm
    · rw [hw] at hm
      cases hm
  | encoded e b l h0 hp p hl =>
    have e1 : tell k x (.encoded k, .did l) = { x with due := x.due || x.config, wait := if x.config then none else x.wait } := if_pos rfl
    rw [e1]
    have hw : x.wait = some b := (v.wait e h0).symm.trans hp
    have hi : x.id = some e.id := by rw [← v.id, h0]; rfl
    have hc := v.config e h0
    obtain ⟨q1, q2⟩ := v.pend e b h0 hp
    cases hcc : x.config with
    | true =>
      rw [hcc] at hc
      obtain ⟨h1, h2, h3⟩ := p.known hc
      have hmem : ∀ b' i, i ∈ listed k t b' ↔ i ∈ listed k s b' ∨ (b' = b ∧ i = e.id) := by
        intro b' i
        rw [h2]
        split
        · rename_i hb
          simp [hb]
        · rename_i hb
          simp [hb]
      refine ⟨by rw [h1, hi]; rfl, p.next.trans v.used, hl.trans v.casts, ?_, ?_, ?_, ?_, v.small, v.fresh, ?_, v.late, ?_, ?_, ?_⟩
      · intro e' he'
        rw [h1] at he'
        cases he'
        exact hc
      · intro e' he'
        rw [h1] at he'
        cases he'
        rfl
      · intro b' i
        rw [h3, hmem, v.task]
      · intro b' i hm
        rcases (hmem b' i).1 hm with hm | ⟨rfl, rfl⟩
        · exact v.member b' i hm
        · exact q1
      · intro e' b' he' hpp
        rw [h1] at he'
        cases he'
        cases hpp
      · intro i b' hi' hl'
        refine .inl ((hmem _ _).2 ?_)
        rcases v.last i b' hi' hl' with hm | hm
        · exact .inl hm
        · rw [hw] at hm
          cases hm
          rw [hi] at hi'
          cases hi'
          exact .inr ⟨rfl, rfl⟩
      · intro i b' hi' hl' _
        refine (hmem _ _).2 ?_
        rcases v.last i b' hi' hl' with hm | hm
        · exact .inl hm
        · rw [hw] at hm
          cases hm
          rw [hi] at hi'
          cases hi'
          exact .inr ⟨rfl, rfl⟩
      · exact fun _ => rfl
    | false =>
      rw [hcc] at hc
      obtain ⟨h1, h2, h3⟩ := p.unknown hc
      refine ⟨by rw [h1, hi]; rfl, p.next.trans v.used, hl.trans v.casts, ?_, ?_, ?_, ?_, v.small, v.fresh, ?_, v.late, ?_, ?_, ?_⟩
      · intro e' he'
        rw [h1] at he'
        cases he'
        exact hc
      · intro e' he'
        rw [h1] at he'
        cases he'
        exact hw.symm
      · intro b' i
        rw [h3, h2, v.task]
      · intro b' i hm
        rw [h2] at hm
        exact v.member b' i hm
      · intro e' b' he' hpp
        rw [h1] at he'
        cases he'
        cases hpp
        rw [h2]
        exact ⟨q1, q2⟩
      · intro i b' hi' hl'
        rw [h2]
        exact v.last i b' hi' hl'
      · intro i b' hi' hl' hd
        rw [h2]
        dsimp only at hd
        rw [Bool.or_false] at hd
        exact v.due i b' hi' hl' hd
      · intro hn
        dsimp only at hn
        rw [hi] at hn
        cases hn
  | reaped b i l hi hm h1 h2 h3 h4 h5 =>
    have e1 : tell k x (.reap b k i, .did l) = x := rfl
    rw [e1]
    have hmem : ∀ b' i', i' ∈ listed k t b' ↔ i' ∈ listed k s b' ∧ ¬ (b' = b ∧ i' = i) := by
      intro b' i'
      rw [h3]
      split
      · rename_i hb
        simp [hb]
      · rename_i hb
        simp [hb]
    have hid : ∀ j, x.id = some j → j ≠ i := by
      rintro j hj rfl
      exact hi (v.id.trans hj)
    refine ⟨h1 ▸ v.id, h2.trans v.used, h5.trans v.casts, fun e he => v.config e (h1 ▸ he), fun e he => v.wait e (h1 ▸ he),
      fun b' i' => by rw [h4, hmem, v.task], fun b' i' hh => v.member b' i' ((hmem _ _).1 hh).1, v.small, v.fresh,
      fun e b' he hp => ⟨(v.pend e b' (h1 ▸ he) hp).1, fun hh => (v.pend e b' (h1 ▸ he) hp).2 ((hmem _ _).1 hh).1⟩, v.late, ?_, ?_, v.idle⟩
    · intro j b' hj hl'
      rcases v.last j b' hj hl' with hh | hh
      · exact .inl ((hmem _ _).2 ⟨hh, fun e => hid j hj e.2⟩)
      · exact .inr hh
    · intro j b' hj hl' hd
      exact (hmem _ _).2 ⟨v.due j b' hj hl' hd, fun e => hid j hj e.2⟩

theorem nodup_publish {k : Kind} {s : State} {b : Nat} (hb : b < s.casts.length) (h : s.tasks.Nodup)
    (hn : ∀ e, enc k s = some e → (b, k, e.id) ∉ s.tasks) : (publishTo k s b).2.tasks.Nodup := by
  rcases (publishTo_spec k s b hb).2.2.2.2.2.2 with hh | ⟨e, he, hh⟩
  · rw [hh]
    exact h
  · rw [hh, List.nodup_append]
    refine ⟨h, by simp, ?_⟩
    rintro x hx y hy rfl
    rw [List.mem_singleton.1 hy] at hx
    exact hn e he hx

theorem agrees_new {g : Nat → List Nat × List Nat} {s : State} (h : Agrees g s) :
    Agrees g { s with connect := none, casts := s.casts ++ [⟨[], []⟩] } := by
  intro b
  rw [(same_new .video s).2.2.1, (same_new .audio s).2.2.1]
  exact h b

theorem glob_step {s : State} (v : Basic s) (hd : s.dead = false) (op : Op) :
    (step s op).2.broadcast = none ∧ (step s op).2.tasks.Nodup ∧
      ∀ g, Agrees g s → Agrees (paint g (events (step s op).1)) (step s op).2 := by
  unfold step
  rw [if_neg (by simp [hd])]
  cases op with
  | connect u => exact ⟨v.none, v.nodup, fun g hg => hg⟩
  | established ok =>
    dsimp only
    cases hc : s.connect with
    | none => exact ⟨v.none, v.nodup, fun g hg => hg⟩
    | some u =>
      dsimp only
      cases ok with
      | false => exact ⟨v.none, v.nodup, fun g hg => hg⟩
      | true =>
        rw [if_pos rfl]
        cases hh : u.http with
        | false => exact ⟨v.none, v.nodup, fun g hg => hg⟩
        | true =>
          rw [if_pos rfl]
          unfold connected
          split
          · rename_i r hr
            split at hr
            · rename_i p hp
              cases hr
              dsimp only [did]
              have hb1 : s.casts.length < ({ s with connect := none, casts := s.casts ++ [⟨[], []⟩] } : State).casts.length := by simp
              obtain ⟨a1, a2, a3, a4, a5, a6, a7⟩ := publishTo_spec .video
                { s with connect := none, casts := s.casts ++ [⟨[], []⟩] } s.casts.length hb1
              have hb2 : s.casts.length < (publishTo .video { s with connect := none, casts := s.casts ++ [⟨[], []⟩] } s.casts.length).2.casts.length := by
                rw [a4.2.2.1]
                exact hb1
              obtain ⟨b1, b2, b3, b4, b5, b6, b7⟩ := publishTo_spec .audio
                (publishTo .video { s with connect := none, casts := s.casts ++ [⟨[], []⟩] } s.casts.length).2 s.casts.length hb2
              refine ⟨b4.2.1.trans (a4.2.1.trans v.none), ?_, ?_⟩
              · have n1 := nodup_publish (k := .video) hb1 v.nodup (fun e _ hm => Nat.lt_irrefl _ (v.bound _ hm))
                refine nodup_publish (k := .audio) hb2 n1 ?_
                intro e _ hm
                have hm2 := (((a3 .audio (by decide)).2.2.2 _ _).1 hm)
                exact Nat.lt_irrefl _ (v.bound _ hm2)
              · intro g hg
                show Agrees (paint g (Event.publish _ _ :: _ ++ overs s _)) _
                rw [List.cons_append, List.append_assoc]
                show Agrees (paint g (_ ++ (_ ++ overs s _))) _
                rw [paint_append, paint_overs]
                exact b5 _ (a5 _ (agrees_new hg))
            · cases hr
          · exact ⟨v.none, v.nodup, fun g hg => hg⟩
  | init k' ok =>
    dsimp only
    cases ok with
    | false => exact ⟨v.none, v.nodup, fun g hg => hg⟩
    | true =>
      rw [if_pos rfl, openEnc_eq v.none]
      dsimp only [did, events]
      refine ⟨by cases k' <;> exact v.none, ?_, ?_⟩
      · rw [bump_tasks, setEnc_tasks]
        exact v.nodup
      · intro g hg
        rw [paint_overs]
        exact agrees_of hg ((bump_casts _ _).trans (setEnc_casts _ _ _))
  | input k' =>
    dsimp only
    cases enc k' s <;> exact ⟨v.none, v.nodup, fun g hg => hg⟩
  | close k' =>
    dsimp only [did, events]
    refine ⟨(setEnc_rest _ _ _).2.1.trans v.none, by rw [setEnc_tasks]; exact v.nodup, fun g hg => ?_⟩
    rw [paint_overs]
    exact agrees_of hg (setEnc_casts _ _ _)
  | configured k' =>
    dsimp only
    cases he : enc k' s with
    | none => exact ⟨v.none, v.nodup, fun g hg => hg⟩
    | some e =>
      exact ⟨(setEnc_rest _ _ _).2.1.trans v.none, by dsimp only; rw [setEnc_tasks]; exact v.nodup,
        fun g hg => agrees_of hg (setEnc_casts _ _ _)⟩
  | encoded k' =>
    dsimp only
    cases he : enc k' s with
    | none => exact ⟨v.none, v.nodup, fun g hg => hg⟩
    | some e =>
      dsimp only [did, encoded, events]
      have hw : ∀ (l : List Event) (g : Nat → List Nat × List Nat) (t : State),
          paint g (l ++ [Event.write k' e.id] ++ overs s t) = paint g l := by
        intro l g t
        rw [paint_overs, paint_append]
        rfl
      cases hp : e.pending with
      | none =>
        dsimp only
        refine ⟨(setEnc_rest _ _ _).2.1.trans v.none, by rw [setEnc_tasks]; exact v.nodup, fun g hg => ?_⟩
        rw [hw]
        exact agrees_of hg (setEnc_casts _ _ _)
      | some b =>
        dsimp only
        obtain ⟨hb, hnot⟩ := v.pend k' e b he hp
        have hb' : b < (setEnc k' s (some { id := e.id, config := e.config, pending := none })).casts.length := by
          rw [setEnc_casts]
          exact hb
        obtain ⟨_, _, _, a4, a5, _, _⟩ := publishTo_spec k' (setEnc k' s (some { id := e.id, config := e.config, pending := none })) b hb'
        refine ⟨a4.2.1.trans ((setEnc_rest _ _ _).2.1.trans v.none), nodup_publish hb' (by rw [setEnc_tasks]; exact v.nodup) ?_, ?_⟩
        · intro e' he'
          rw [enc_same] at he'
          cases he'
          rw [setEnc_tasks]
          exact hnot
        · intro g hg
          rw [hw]
          exact a5 g (agrees_of hg (setEnc_casts _ _ _))
  | reap b k' i =>
    dsimp only
    unfold reap
    by_cases hm : (b, k', i) ∈ s.tasks
    · rw [if_pos hm]
      by_cases hi : (enc k' s).map (·.id) = some i
      · rw [if_pos hi]
        exact ⟨v.none, v.nodup, fun g hg => hg⟩
      · rw [if_neg hi]
        dsimp only [did, events]
        obtain ⟨c, h0, h1, h2, h3, h4, h5, h6, _⟩ := setCast_spec { s with tasks := s.tasks.erase (b, k', i) } b
          (fun c => c.remove k' i) (v.bound _ hm)
        refine ⟨h3.2.1.trans v.none, by rw [h6]; exact v.nodup.erase _, fun g hg => ?_⟩
        rw [paint_overs]
        exact h2 g (agrees_of hg rfl)
    · rw [if_neg hm]
      exact ⟨v.none, v.nodup, fun g hg => hg⟩

/-- The state of the connection, and whether there was a panic. -/
theorem conn_step {s : State} (v : Basic s) (op : Op) (tr : Trace) (ha : s.connect = asked tr)
    (hd : s.dead = true ↔ ∃ e ∈ tr, e.2 = .panic) :
    (step s op).2.connect = asked (tr ++ [(op, (step s op).1)]) ∧
      ((step s op).2.dead = true ↔ ∃ e ∈ tr ++ [(op, (step s op).1)], e.2 = .panic) := by
  have hp : ∀ o, (∃ e ∈ tr ++ [(op, o)], e.2 = .panic) ↔ (∃ e ∈ tr, e.2 = .panic) ∨ o = .panic := by
    intro o
    constructor
    · rintro ⟨e, he, h⟩
      rcases List.mem_append.1 he with he | he
      · exact .inl ⟨e, he, h⟩
      · rw [List.mem_singleton.1 he] at h
        exact .inr h
    · rintro (⟨e, he, h⟩ | h)
      · exact ⟨e, List.mem_append_left _ he, h⟩
      · exact ⟨_, List.mem_append_right _ (List.mem_singleton.2 rfl), h⟩
  rw [hp, asked_snoc, ← hd, ← ha]
  unfold step
  by_cases hdd : s.dead = true
  · rw [if_pos hdd]
    refine ⟨?_, by simp [hdd]⟩
    cases op with
    | _ => rfl
  · rw [if_neg hdd]
    cases op with
    | connect u => exact ⟨rfl, by simp⟩
    | established ok =>
      dsimp only
      cases hc : s.connect with
      | none => exact ⟨by rw [hc]; rfl, by simp⟩
      | some u =>
        dsimp only
        cases ok with
        | false => exact ⟨rfl, by simp⟩
        | true =>
          rw [if_pos rfl]
          cases hh : u.http with
          | false => exact ⟨by rw [if_neg (by simp)]; exact hc, by simp⟩
          | true =>
            rw [if_pos rfl]
            unfold connected
            split
            · rename_i r hr
              split at hr
              · rename_i p hp
                cases hr
                dsimp only [did]
                have hb1 : s.casts.length < ({ s with connect := none, casts := s.casts ++ [⟨[], []⟩] } : State).casts.length := by simp
                have a4 := (publishTo_spec .video
                  { s with connect := none, casts := s.casts ++ [⟨[], []⟩] } s.casts.length hb1).2.2.2.1
                have b4 := (publishTo_spec .audio
                  (publishTo .video { s with connect := none, casts := s.casts ++ [⟨[], []⟩] } s.casts.length).2 s.casts.length
                  (by rw [a4.2.2.1]; exact hb1)).2.2.2.1
                refine ⟨b4.1.trans a4.1, ?_⟩
                rw [b4.2.2.2, a4.2.2.2]
                simp
              · cases hr
            · exact ⟨rfl, by simp⟩
    | init k' ok =>
      dsimp only
      cases ok with
      | false => exact ⟨rfl, by simp⟩
      | true =>
        rw [if_pos rfl, openEnc_eq v.none]
        dsimp only [did]
        refine ⟨by cases k' <;> rfl, ?_⟩
        cases k' <;> simp [bumpId, setEnc]
    | input k' =>
      dsimp only
      cases enc k' s <;> exact ⟨rfl, by simp⟩
    | close k' => exact ⟨(setEnc_rest _ _ _).1, by dsimp only [did]; rw [(setEnc_rest _ _ _).2.2.2]; simp⟩
    | configured k' =>
      dsimp only
      cases he : enc k' s with
      | none => exact ⟨rfl, by simp⟩
      | some e => exact ⟨(setEnc_rest _ _ _).1, by dsimp only; rw [(setEnc_rest _ _ _).2.2.2]; simp⟩
    | encoded k' =>
      dsimp only
      cases he : enc k' s with
      | none => exact ⟨rfl, by simp⟩
      | some e =>
        dsimp only [did, encoded]
        cases hp : e.pending with
        | none => exact ⟨(setEnc_rest _ _ _).1, by dsimp only; rw [(setEnc_rest _ _ _).2.2.2]; simp⟩
        | some b =>
          dsimp only
          have a4 := (publishTo_spec k' (setEnc k' s (some { id := e.id, config := e.config, pending := none })) b
            (by rw [setEnc_casts]; exact (v.pend k' e b he hp).1)).2.2.2.1
          refine ⟨a4.1.trans (setEnc_rest _ _ _).1, ?_⟩
          rw [a4.2.2.2, (setEnc_rest _ _ _).2.2.2]
          simp
    | reap b k' i =>
      dsimp only
      unfold reap
      by_cases hm : (b, k', i) ∈ s.tasks
      · rw [if_pos hm]
        by_cases hi : (enc k' s).map (·.id) = some i
        · rw [if_pos hi]
          exact ⟨rfl, by simp⟩
        · rw [if_neg hi]
          dsimp only [did]
          obtain ⟨c, h0, h1, h2, h3, _⟩ := setCast_spec { s with tasks := s.tasks.erase (b, k', i) } b
            (fun c => c.remove k' i) (v.bound _ hm)
          refine ⟨h3.1, ?_⟩
          rw [h3.2.2.2]
          simp
      · rw [if_neg hm]
        exact ⟨rfl, by simp⟩

structure Inv (tr : Trace) (s : State) : Prop where
  dead : s.dead = true ↔ ∃ e ∈ tr, e.2 = .panic
  asked : s.connect = asked tr
  basic : Basic s
  shown : ∀ k b, listed k s b = shown k tr b
  core : ∀ k, Core k (told k tr) s

theorem shown_snoc (k : Kind) (tr : Trace) (e : Op × Out) (b : Nat) :
    shown k (tr ++ [e]) b = pick k (paint (paint (fun _ => ([], [])) (tr.flatMap fun e => events e.2)) (events e.2) b) := by
  unfold shown
  rw [List.flatMap_append, paint_append]
  simp

theorem basic_of {s : State} (h1 : s.broadcast = none) (h2 : s.tasks.Nodup) {f : Kind → Told} (h : ∀ k, Core k (f k) s) : Basic s := by
  refine ⟨h1, h2, ?_, ?_⟩
  · rintro ⟨b, k, i⟩ hm
    exact listed_bound (((h k).task b i).1 hm)
  · intro k e b he hp
    obtain ⟨q1, q2⟩ := (h k).pend e b he hp
    exact ⟨(h k).casts ▸ ((h k).small _ _ q1).1, fun hm => q2 (((h k).task _ _).1 hm)⟩

theorem inv_reach {tr : Trace} {s : State} (h : machine.Reach tr s) : Inv tr s := by
  refine Machine.Reach.induct (M := machine) (P := fun tr s => Inv tr s) ?_ ?_ h
  · have c : ∀ k, Core k (told k []) init := by
      intro k
      refine ⟨by cases k <;> rfl, by cases k <;> rfl, rfl, fun e he => ?_, fun e he => ?_, fun b i => ?_, fun b i hm => ?_,
        fun b i hm => (nomatch hm), fun i hi => (nomatch hi), fun e b he => ?_, fun i hi => (nomatch hi), fun i b hi => (nomatch hi),
        fun i b hi => (nomatch hi), fun _ => rfl⟩
      · cases k <;> cases he
      · cases k <;> cases he
      · exact ⟨fun hm => (nomatch hm), fun hm => (nomatch hm)⟩
      · cases hm
      · cases k <;> cases he
    exact ⟨⟨fun h => (nomatch h), fun ⟨_, h, _⟩ => (nomatch h)⟩, rfl, basic_of rfl List.nodup_nil c, fun k b => by cases k <;> rfl, c⟩
  · intro tr s op _ v
    show Inv (tr ++ [(op, (step s op).1)]) (step s op).2
    obtain ⟨q1, q2⟩ := conn_step v.basic op tr v.asked v.dead
    cases hd : s.dead with
    | true =>
      have hs : step s op = (.panic, s) := by
        unfold step
        rw [if_pos hd]
      have ht : ∀ k x, tell k x (op, .panic) = x := by
        intro k x
        cases op with
        | init k b => cases b <;> rfl
        | established b => cases b <;> rfl
        | _ => rfl
      rw [hs] at q1 q2 ⊢
      refine ⟨q2, q1, v.basic, fun k b => ?_, fun k => ?_⟩
      · rw [shown_snoc]
        exact v.shown k b
      · rw [told_snoc, ht]
        exact v.core k
    | false =>
      have c : ∀ k, Core k (told k (tr ++ [(op, (step s op).1)])) (step s op).2 := fun k => core_step (v.core k) (chg_step v.basic hd op k)
      obtain ⟨g1, g2, g3⟩ := glob_step v.basic hd op
      refine ⟨q2, q1, basic_of g1 g2 c, fun k b => ?_, c⟩
      rw [shown_snoc]
      have ha : Agrees (paint (fun _ => ([], [])) (tr.flatMap fun e => events e.2)) s := by
        intro b
        rw [v.shown .video, v.shown .audio]
        rfl
      have := g3 _ ha b
      rw [this]
      cases k <;> rfl

/-! ### The end of broadcasts -/

/-- One kind of track holds the broadcast. -/
def HeldBy (k : Kind) (s : State) (b : Nat) : Prop := (∃ e, enc k s = some e ∧ e.pending = some b) ∨ ∃ i, (b, k, i) ∈ s.tasks

theorem held_iff (s : State) (b : Nat) : held s b = true ↔ ∃ k, HeldBy k s b := by
  have hv : ∀ x : Option Enc, (match x with | some e => e.pending == some b | none => false) = true ↔ ∃ e, x = some e ∧ e.pending = some b := by
    intro x
    cases x with
    | none => simp
    | some e => simp
  unfold held
  rw [Bool.or_eq_true, Bool.or_eq_true]
  refine (or_congr (or_congr (hv s.video) (hv s.audio)) List.any_eq_true).trans ?_
  constructor
  · rintro ((h | h) | ⟨⟨b', k, i⟩, hm, hb⟩)
    · exact ⟨.video, .inl h⟩
    · exact ⟨.audio, .inl h⟩
    · have : b' = b := by simpa using hb
      subst this
      exact ⟨k, .inr ⟨i, hm⟩⟩
  · rintro ⟨k, h | ⟨i, hm⟩⟩
    · cases k with
      | video => exact .inl (.inl h)
      | audio => exact .inl (.inr h)
    · exact .inr ⟨_, hm, by simp⟩

theorem heldBy_same {k : Kind} {s t : State} (h : Same k s t) (b : Nat) : HeldBy k t b ↔ HeldBy k s b := by
  unfold HeldBy
  rw [h.1]
  simp only [h.2.2.2]

theorem held_chg {k : Kind} {s t : State} {op : Op} {o : Out} (h : Chg k s t op o) (b : Nat) (hb : b < s.casts.length)
    (hh : HeldBy k t b) : HeldBy k s b := by
  cases h with
  | same _ _ hs _ _ => exact (heldBy_same hs b).1 hh
  | opened l h1 _ _ h4 _ =>
    rcases hh with ⟨e, he, hp⟩ | ⟨i, hm⟩
    · rw [h1] at he
      cases he
      cases hp
    · exact .inr ⟨i, (h4 _ _).1 hm⟩
  | closed l h1 _ _ h4 _ =>
    rcases hh with ⟨e, he, hp⟩ | ⟨i, hm⟩
    · rw [h1] at he
      cases he
    · exact .inr ⟨i, (h4 _ _).1 hm⟩
  | configured e l h0 h1 _ _ h4 _ =>
    rcases hh with ⟨e', he, hp⟩ | ⟨i, hm⟩
    · rw [h1] at he
      cases he
      exact .inl ⟨e, h0, hp⟩
    · exact .inr ⟨i, (h4 _ _).1 hm⟩
  | joined l _ hn hp =>
    cases he : enc k s with
    | none => exact (heldBy_same (hn he) b).1 hh
    | some e =>
      have p := hp e he
      cases hc : e.config with
      | true =>
        obtain ⟨h1, _, h3⟩ := p.known hc
        rcases hh with ⟨e', he', hp'⟩ | ⟨i, hm⟩
        · exact .inl ⟨e', (h1.symm.trans he') ▸ he, hp'⟩
        · rcases (h3 _ _).1 hm with hm | ⟨hb', _⟩
          · exact .inr ⟨i, hm⟩
          · omega
      | false =>
        obtain ⟨h1, _, h3⟩ := p.unknown hc
        rcases hh with ⟨e', he', hp'⟩ | ⟨i, hm⟩
        · rw [h1] at he'
          cases he'
          cases hp'
          omega
        · exact .inr ⟨i, (h3 _ _).1 hm⟩
  | idle e l _ _ hs _ => exact (heldBy_same hs b).1 hh
  | encoded e b' l h0 hp p _ =>
    cases hc : e.config with
    | true =>
      obtain ⟨h1, _, h3⟩ := p.known hc
      rcases hh with ⟨e', he', hp'⟩ | ⟨i, hm⟩
      · rw [h1] at he'
        cases he'
        cases hp'
      · rcases (h3 _ _).1 hm with hm | ⟨hb', _⟩
        · exact .inr ⟨i, hm⟩
        · exact .inl ⟨e, h0, hb' ▸ hp⟩
    | false =>
      obtain ⟨h1, _, h3⟩ := p.unknown hc
      rcases hh with ⟨e', he', hp'⟩ | ⟨i, hm⟩
      · rw [h1] at he'
        cases he'
        cases hp'
        exact .inl ⟨e, h0, hp⟩
      · exact .inr ⟨i, (h3 _ _).1 hm⟩
  | reaped b' i l _ _ h1 _ _ h4 _ =>
    rcases hh with ⟨e, he, hp⟩ | ⟨j, hm⟩
    · exact .inl ⟨e, h1 ▸ he, hp⟩
    · exact .inr ⟨j, ((h4 _ _).1 hm).1⟩

theorem mem_overs (s t : State) (b : Nat) :
    Event.over b ∈ overs s t ↔ b < t.casts.length ∧ (held s b = true ∨ s.casts.length ≤ b) ∧ held t b = false := by
  unfold overs
  rw [List.mem_map]
  constructor
  · rintro ⟨b', hb, he⟩
    cases he
    rw [List.mem_filter] at hb
    simpa using hb
  · intro h
    refine ⟨b, ?_, rfl⟩
    rw [List.mem_filter]
    simpa using h

theorem over_step {s : State} (v : Basic s) (op : Op) (b : Nat) :
    Event.over b ∈ events (step s op).1 ↔
      b < (step s op).2.casts.length ∧ (held s b = true ∨ s.casts.length ≤ b) ∧ held (step s op).2 b = false := by
  have quiet : ∀ (o : Out) (t : State), (Event.over b ∉ events o) → t.casts.length = s.casts.length → (held t b = held s b) →
      (Event.over b ∈ events o ↔ b < t.casts.length ∧ (held s b = true ∨ s.casts.length ≤ b) ∧ held t b = false) := by
    intro o t h1 h2 h3
    refine ⟨fun h => absurd h h1, ?_⟩
    rintro ⟨h4, h5 | h5, h6⟩
    · rw [h3, h5] at h6
      cases h6
    · omega
  have loud : ∀ (r : List Event × State), Event.over b ∉ r.1 → (Event.over b ∈ events (did s r).1 ↔
      b < r.2.casts.length ∧ (held s b = true ∨ s.casts.length ≤ b) ∧ held r.2 b = false) := by
    intro r hr
    rw [← mem_overs]
    show Event.over b ∈ r.1 ++ overs s r.2 ↔ _
    rw [List.mem_append]
    exact ⟨fun h => h.resolve_left hr, .inr⟩
  have cat : ∀ (l : List Event) (b' : Nat), (∀ x ∈ l, ∃ v a, x = Event.catalog b' v a) → Event.over b ∉ l := by
    intro l b' h hm
    obtain ⟨_, _, h⟩ := h _ hm
    cases h
  unfold step
  by_cases hd : s.dead = true
  · rw [if_pos hd]
    exact quiet _ _ (fun h => (nomatch h)) rfl rfl
  rw [if_neg hd]
  cases op with
  | connect u => exact quiet _ _ (fun h => (nomatch h)) rfl rfl
  | established ok =>
    dsimp only
    cases hc : s.connect with
    | none => exact quiet _ _ (fun h => (nomatch h)) rfl rfl
    | some u =>
      dsimp only
      cases ok with
      | false => exact quiet _ _ (fun h => (nomatch h)) rfl rfl
      | true =>
        rw [if_pos rfl]
        cases hh : u.http with
        | false => exact quiet _ _ (fun h => (nomatch h)) rfl rfl
        | true =>
          rw [if_pos rfl]
          unfold connected
          split
          · rename_i r hr
            split at hr
            · rename_i p hp
              cases hr
              refine loud _ ?_
              have hb1 : s.casts.length < ({ s with connect := none, casts := s.casts ++ [⟨[], []⟩] } : State).casts.length := by simp
              obtain ⟨_, _, _, a4, _, a6, _⟩ := publishTo_spec .video
                { s with connect := none, casts := s.casts ++ [⟨[], []⟩] } s.casts.length hb1
              obtain ⟨_, _, _, _, _, b6, _⟩ := publishTo_spec .audio
                (publishTo .video { s with connect := none, casts := s.casts ++ [⟨[], []⟩] } s.casts.length).2 s.casts.length
                (by rw [a4.2.2.1]; exact hb1)
              intro hm
              rcases List.mem_cons.1 hm with hm | hm
              · cases hm
              · rcases List.mem_append.1 hm with hm | hm
                · exact cat _ _ a6 hm
                · exact cat _ _ b6 hm
            · cases hr
          · exact quiet _ _ (fun h => (nomatch h)) rfl rfl
  | init k' ok =>
    dsimp only
    cases ok with
    | false => exact quiet _ _ (fun h => (nomatch h)) rfl rfl
    | true =>
      rw [if_pos rfl, openEnc_eq v.none]
      exact loud _ (fun h => (nomatch h))
  | input k' =>
    dsimp only
    cases enc k' s
    · exact quiet _ _ (fun h => by cases List.mem_singleton.1 h) rfl rfl
    · exact quiet _ _ (fun h => by cases List.mem_singleton.1 h) rfl rfl
  | close k' => exact loud _ (fun h => (nomatch h))
  | configured k' =>
    dsimp only
    cases he : enc k' s with
    | none => exact quiet _ _ (fun h => (nomatch h)) rfl rfl
    | some e =>
      refine quiet _ _ (fun h => (nomatch h)) (setEnc_rest _ _ _).2.2.1 ?_
      cases k' with
      | video =>
        have he : s.video = some e := he
        unfold held
        rw [he]
        rfl
      | audio =>
        have he : s.audio = some e := he
        unfold held
        rw [he]
        rfl
  | encoded k' =>
    dsimp only
    cases he : enc k' s with
    | none => exact quiet _ _ (fun h => (nomatch h)) rfl rfl
    | some e =>
      refine loud _ ?_
      intro hm
      unfold encoded at hm
      rcases List.mem_append.1 hm with hm | hm
      · cases hp : e.pending with
        | none =>
          rw [hp] at hm
          cases hm
        | some b' =>
          rw [hp] at hm
          exact cat _ _ (publishTo_spec k' (setEnc k' s (some { id := e.id, config := e.config, pending := none })) b'
            (by rw [setEnc_casts]; exact (v.pend k' e b' he hp).1)).2.2.2.2.2.1 hm
      · cases List.mem_singleton.1 hm
  | reap b' k' i =>
    dsimp only
    unfold reap
    by_cases hm : (b', k', i) ∈ s.tasks
    · rw [if_pos hm]
      by_cases hi : (enc k' s).map (·.id) = some i
      · rw [if_pos hi]
        exact quiet _ _ (fun h => (nomatch h)) rfl rfl
      · rw [if_neg hi]
        refine loud _ ?_
        obtain ⟨c, _, _, _, _, _, _, _, h7⟩ := setCast_spec { s with tasks := s.tasks.erase (b', k', i) } b'
          (fun c => c.remove k' i) (v.bound _ hm)
        exact cat _ _ h7
    · rw [if_neg hm]
      exact quiet _ _ (fun h => (nomatch h)) rfl rfl

/-- The last producer of the broadcast was dropped. -/
def Ended (tr : Trace) (b : Nat) : Prop := ∃ e ∈ tr, Event.over b ∈ events e.2

theorem ended_iff {tr : Trace} {s : State} (h : machine.Reach tr s) (b : Nat) : Ended tr b ↔ b < s.casts.length ∧ held s b = false := by
  refine Machine.Reach.induct (M := machine) (P := fun tr s => Ended tr b ↔ b < s.casts.length ∧ held s b = false) ?_ ?_ h
  · exact ⟨fun ⟨_, h, _⟩ => (nomatch h), fun ⟨h, _⟩ => (nomatch h)⟩
  · intro tr s op hr ih
    have v := inv_reach hr
    show Ended (tr ++ [(op, (step s op).1)]) b ↔ b < (step s op).2.casts.length ∧ held (step s op).2 b = false
    have hsnoc : Ended (tr ++ [(op, (step s op).1)]) b ↔ Ended tr b ∨ Event.over b ∈ events (step s op).1 := by
      constructor
      · rintro ⟨e, he, h⟩
        rcases List.mem_append.1 he with he | he
        · exact .inl ⟨e, he, h⟩
        · rw [List.mem_singleton.1 he] at h
          exact .inr h
      · rintro (⟨e, he, h⟩ | h)
        · exact ⟨e, List.mem_append_left _ he, h⟩
        · exact ⟨_, List.mem_append_right _ (List.mem_singleton.2 rfl), h⟩
    rw [hsnoc, ih, over_step v.basic]
    cases hd : s.dead with
    | true =>
      have hs : step s op = (.panic, s) := by
        unfold step
        rw [if_pos hd]
      rw [hs]
      constructor
      · rintro (h | ⟨h1, h2 | h2, h3⟩)
        · exact h
        · exact ⟨h1, h3⟩
        · exact ⟨h1, h3⟩
      · exact .inl
    | false =>
      have hlen : s.casts.length ≤ (step s op).2.casts.length := by
        have c := chg_step v.basic hd op .video
        generalize (step s op).1 = o at c
        cases c <;> omega
      have hback : b < s.casts.length → held (step s op).2 b = true → held s b = true := by
        intro hb hh
        rw [held_iff] at hh ⊢
        obtain ⟨k, hk⟩ := hh
        exact ⟨k, held_chg (chg_step v.basic hd op k) b hb hk⟩
      constructor
      · rintro (⟨h1, h2⟩ | ⟨h1, _, h3⟩)
        · refine ⟨by omega, ?_⟩
          cases hh : held (step s op).2 b with
          | false => rfl
          | true =>
            rw [hback h1 hh] at h2
            cases h2
        · exact ⟨h1, h3⟩
      · rintro ⟨h1, h2⟩
        by_cases hb : b < s.casts.length
        · cases hh : held s b with
          | false => exact .inl ⟨hb, rfl⟩
          | true => exact .inr ⟨h1, .inl rfl, h2⟩
        · exact .inr ⟨h1, .inr (by omega), h2⟩

theorem held_told {tr : Trace} {s : State} (v : Inv tr s) (b : Nat) :
    held s b = true ↔ ∃ k, (told k tr).wait = some b ∨ shown k tr b ≠ [] := by
  rw [held_iff]
  refine exists_congr fun k => ?_
  have c := v.core k
  unfold HeldBy
  refine or_congr ?_ ?_
  · constructor
    · rintro ⟨e, he, hp⟩
      rw [← c.wait e he]
      exact hp
    · intro hw
      cases he : enc k s with
      | none =>
        have hi : (told k tr).id = none := by rw [← c.id, he]; rfl
        rw [c.idle hi] at hw
        cases hw
      | some e => exact ⟨e, rfl, (c.wait e he).trans hw⟩
  · rw [← v.shown]
    constructor
    · rintro ⟨i, hm⟩ hn
      rw [c.task, hn] at hm
      cases hm
    · intro hn
      obtain ⟨i, hi⟩ := List.exists_mem_of_ne_nil _ hn
      exact ⟨i, (c.task b i).2 hi⟩

/-! ## Theorems -/

theorem sound_dead {tr : Trace} {s : State} (v : Inv tr s) (h : Sound tr) : s.dead = false := by
  cases hd : s.dead with
  | false => rfl
  | true =>
    obtain ⟨e, he, hp⟩ := v.dead.1 hd
    exact absurd hp (h e he)

/-- An encoder for video, a connection and the first frame. -/
def exPub : List Op :=
  [.init .video true, .connect (some ⟨true, ['/', 'a']⟩), .established true, .configured .video, .encoded .video]

/-- **Only tracks that were open when the broadcast was connected are listed.** -/
theorem c121_listed {tr : Trace} {s : State} (h : machine.Reach tr s) (k : Kind) (b i : Nat) (hi : i ∈ shown k tr b) :
    (b, i) ∈ (told k tr).members := by
  have v := inv_reach h
  exact (v.core k).member b i (v.shown k b ▸ hi)

example : shown .video (machine.run exPub).1 0 = [0] ∧ (told .video (machine.run exPub).1).members = [(0, 0)] := by decide

/-- **A track open when connecting is listed** in that broadcast, at once if the configuration of the encoder is known, otherwise with
the first frame after it is.  Full claim: also if it was opened after connecting; `c121_late` shows that this is false. -/
theorem c121_lists_partial {tr : Trace} {s : State} (h : machine.Reach tr s) (k : Kind) (b i : Nat) (hi : (told k tr).id = some i)
    (hl : (told k tr).last = some b) (hd : (told k tr).due = true) : i ∈ shown k tr b := by
  have v := inv_reach h
  rw [← v.shown]
  exact (v.core k).due i b hi hl hd

example : (told .video (machine.run exPub).1).id = some 0 ∧ (told .video (machine.run exPub).1).last = some 0 ∧
    (told .video (machine.run exPub).1).due = true := by decide

/-- **A track opened after connecting is not listed anywhere**, until connecting again. -/
theorem c121_late {tr : Trace} {s : State} (h : machine.Reach tr s) (k : Kind) (i : Nat) (hi : (told k tr).id = some i)
    (hl : (told k tr).last = none) (b : Nat) : i ∉ shown k tr b := fun hm =>
  ((inv_reach h).core k).late i hi hl b (c121_listed h k b i hm)

/-- Changing the camera while publishing: the new track is not listed, and the broadcast is over. -/
theorem c121_switch : ∃ ops, (machine.run (exPub ++ ops)).1.map (·.2) |>.drop 5 |> (· = [.did [], .did [], .did [.write .video 1],
    .did [.catalog 0 [] [], .over 0]]) :=
  ⟨[.init .video true, .configured .video, .encoded .video, .reap 0 .video 0], by decide⟩

/-- **A track is dropped from a catalog only after it was closed.** -/
theorem c121_stays {tr : Trace} {s : State} (h : machine.Reach tr s) (ok : Sound tr) (op : Op) (k : Kind) (b i : Nat)
    (hi : i ∈ shown k tr b) (hn : i ∉ shown k (tr ++ [(op, (step s op).1)]) b) :
    op = .reap b k i ∧ (told k tr).id ≠ some i := by
  have v := inv_reach h
  have v' := inv_reach (Machine.Reach.step (M := machine) op h)
  change Inv (tr ++ [(op, (step s op).1)]) (step s op).2 at v'
  rw [← v.shown] at hi
  rw [← v'.shown] at hn
  have c := chg_step v.basic (sound_dead v ok) op k
  generalize (step s op).1 = o at c
  generalize (step s op).2 = t at c hn
  cases c with
  | same _ _ hs _ _ => exact absurd (hs.2.2.1 b ▸ hi) hn
  | opened l _ _ h3 _ _ => exact absurd (h3 b ▸ hi) hn
  | closed l _ _ h3 _ _ => exact absurd (h3 b ▸ hi) hn
  | configured e l _ _ _ h3 _ _ => exact absurd (h3 b ▸ hi) hn
  | joined l _ hnn hp =>
    exfalso
    cases he : enc k s with
    | none => exact hn ((hnn he).2.2.1 b ▸ hi)
    | some e =>
      cases hc : e.config with
      | true =>
        rw [((hp e he).known hc).2.1] at hn
        split at hn
        · exact hn (List.mem_append_left _ hi)
        · exact hn hi
      | false => exact hn (((hp e he).unknown hc).2.1 b ▸ hi)
  | idle e l _ _ hs _ => exact absurd (hs.2.2.1 b ▸ hi) hn
  | encoded e b' l _ _ p _ =>
    exfalso
    cases hc : e.config with
    | true =>
      rw [(p.known hc).2.1] at hn
      split at hn
      · exact hn (List.mem_append_left _ hi)
      · exact hn hi
    | false => exact hn ((p.unknown hc).2.1 b ▸ hi)
  | reaped b' j l h1 _ _ _ h3 _ _ =>
    rw [h3] at hn
    split at hn
    · rename_i hb
      subst hb
      by_cases hj : i = j
      · subst hj
        exact ⟨rfl, fun hh => h1 ((v.core k).id.trans hh)⟩
      · exact absurd (List.mem_filter.2 ⟨hi, by simp [hj]⟩) hn
    · exact absurd hi hn

/-- **In the end only open tracks are listed**: when no task can run. -/
theorem c121_closed {tr : Trace} {s : State} (h : machine.Reach tr s) (ok : Sound tr)
    (hq : ∀ b k i, (step s (.reap b k i)).1 = .invalid) (k : Kind) (b i : Nat) (hi : i ∈ shown k tr b) : (told k tr).id = some i := by
  have v := inv_reach h
  rw [← v.shown] at hi
  have ht := ((v.core k).task b i).2 hi
  have := hq b k i
  unfold step at this
  rw [if_neg (by simp [sound_dead v ok])] at this
  dsimp only at this
  unfold reap at this
  rw [if_pos ht] at this
  by_cases he : (enc k s).map (·.id) = some i
  · rw [← (v.core k).id]
    exact he
  · rw [if_neg he] at this
    cases this

example : ∀ b k i, (step (machine.run (exPub ++ [.close .video, .reap 0 .video 0])).2 (.reap b k i)).1 = .invalid := by
  intro b k i
  rfl

/-- **A broadcast is over** exactly when it lists nothing and no encoder that was open when it was connected waits for its configuration. -/
theorem c121_over {tr : Trace} {s : State} (h : machine.Reach tr s) (b : Nat) :
    Ended tr b ↔ b < (told .video tr).casts ∧ ∀ k, (told k tr).wait ≠ some b ∧ shown k tr b = [] := by
  have v := inv_reach h
  rw [ended_iff h, (v.core .video).casts, ← Bool.not_eq_true, held_told v]
  refine and_congr_right fun _ => ?_
  constructor
  · intro hn k
    refine ⟨fun hw => hn ⟨k, .inl hw⟩, ?_⟩
    cases hs : shown k tr b with
    | nil => rfl
    | cons x l => exact absurd ⟨k, .inr (by rw [hs]; exact List.cons_ne_nil _ _)⟩ hn
  · rintro ha ⟨k, hk | hk⟩
    · exact (ha k).1 hk
    · exact hk (ha k).2

/-- So with nothing open it is over as soon as it is connected. -/
theorem c121_empty : (machine.run [.connect (some ⟨true, ['/', 'a']⟩), .established true]).1.map (·.2) =
    [.did [], .did [.publish 0 ['a', 'a'], .over 0]] := by decide

/-- **The broadcast published has the path of the URL, twice.** -/
theorem c121_name {tr : Trace} {s : State} (h : machine.Reach tr s) (ok : Sound tr) (op : Op) (b : Nat) (name : List Char) :
    Event.publish b name ∈ events (step s op).1 ↔ op = .established true ∧ b = (told .video tr).casts ∧
      ∃ p, asked tr = some ⟨true, '/' :: p⟩ ∧ name = p ++ p := by
  have v := inv_reach h
  have cat : ∀ (l : List Event) (b' : Nat), (∀ x ∈ l, ∃ v a, x = Event.catalog b' v a) → Event.publish b name ∉ l := by
    intro l b' h hm
    obtain ⟨_, _, h⟩ := h _ hm
    cases h
  have hov : ∀ t, Event.publish b name ∉ overs s t := by
    intro t hm
    unfold overs at hm
    obtain ⟨_, _, hm⟩ := List.mem_map.1 hm
    cases hm
  rw [← v.asked, ← (v.core .video).casts]
  unfold step
  rw [if_neg (by simp [sound_dead v ok])]
  cases op with
  | established ok =>
    dsimp only
    cases hc : s.connect with
    | none => simp [events]
    | some u =>
      dsimp only
      cases ok with
      | false => simp [events]
      | true =>
        obtain ⟨ht, path⟩ := u
        rw [if_pos rfl]
        dsimp only
        cases ht with
        | false => simp [events]
        | true =>
          rw [if_pos rfl]
          unfold connected
          split
          · rename_i r hr
            split at hr
            · rename_i p
              cases hr
              dsimp only [did, events]
              have hb1 : s.casts.length < ({ s with connect := none, casts := s.casts ++ [⟨[], []⟩] } : State).casts.length := by simp
              obtain ⟨_, _, _, a4, _, a6, _⟩ := publishTo_spec .video
                { s with connect := none, casts := s.casts ++ [⟨[], []⟩] } s.casts.length hb1
              obtain ⟨_, _, _, _, _, b6, _⟩ := publishTo_spec .audio
                (publishTo .video { s with connect := none, casts := s.casts ++ [⟨[], []⟩] } s.casts.length).2 s.casts.length
                (by rw [a4.2.2.1]; exact hb1)
              constructor
              · intro hm
                rcases List.mem_append.1 hm with hm | hm
                · rcases List.mem_cons.1 hm with hm | hm
                  · cases hm
                    exact ⟨rfl, rfl, p, rfl, rfl⟩
                  · rcases List.mem_append.1 hm with hm | hm
                    · exact absurd hm (cat _ _ a6)
                    · exact absurd hm (cat _ _ b6)
                · exact absurd hm (hov _)
              · rintro ⟨_, rfl, q, hq, rfl⟩
                cases hq
                exact List.mem_append_left _ List.mem_cons_self
            · cases hr
          · rename_i hr
            split at hr
            · cases hr
            · rename_i hp
              refine ⟨fun hm => (nomatch hm), ?_⟩
              rintro ⟨_, _, q, hq, _⟩
              cases hq
              exact absurd rfl (hp q)
  | connect u => simp [events]
  | init k' ok =>
    dsimp only
    cases ok with
    | false => simp [events]
    | true =>
      rw [if_pos rfl, openEnc_eq v.basic.none]
      exact ⟨fun hm => absurd hm (hov _), fun ⟨h, _⟩ => (nomatch h)⟩
  | input k' =>
    dsimp only
    cases enc k' s <;> simp [events]
  | close k' => exact ⟨fun hm => absurd hm (hov _), fun ⟨h, _⟩ => (nomatch h)⟩
  | configured k' =>
    dsimp only
    cases enc k' s <;> simp [events]
  | encoded k' =>
    dsimp only
    cases he : enc k' s with
    | none => simp [events]
    | some e =>
      refine ⟨fun hm => ?_, fun ⟨h, _⟩ => (nomatch h)⟩
      exfalso
      rcases List.mem_append.1 hm with hm | hm
      · unfold encoded at hm
        rcases List.mem_append.1 hm with hm | hm
        · cases hp : e.pending with
          | none =>
            rw [hp] at hm
            cases hm
          | some b' =>
            rw [hp] at hm
            exact cat _ _ (publishTo_spec k' (setEnc k' s (some { id := e.id, config := e.config, pending := none })) b'
              (by rw [setEnc_casts]; exact (v.basic.pend k' e b' he hp).1)).2.2.2.2.2.1 hm
        · cases List.mem_singleton.1 hm
      · exact hov _ hm
  | reap b' k' i =>
    dsimp only
    unfold reap
    by_cases hm : (b', k', i) ∈ s.tasks
    · rw [if_pos hm]
      by_cases hi : (enc k' s).map (·.id) = some i
      · rw [if_pos hi]
        simp [events]
      · rw [if_neg hi]
        obtain ⟨c, _, _, _, _, _, _, _, h7⟩ := setCast_spec { s with tasks := s.tasks.erase (b', k', i) } b'
          (fun c => c.remove k' i) (v.basic.bound _ hm)
        refine ⟨fun hm => ?_, fun ⟨h, _⟩ => (nomatch h)⟩
        rcases List.mem_append.1 hm with hm | hm
        · exact absurd hm (cat _ _ h7)
        · exact absurd hm (hov _)
    · rw [if_neg hm]
      simp [events]

/-- So a player with the same URL, `Verif.Wasm.Watch`, looks for another broadcast, unless the path is only a slash. -/
theorem c121_apart (sup : Nat → Bool) (p : List Char) (hp : p ≠ []) :
    ((Wasm.Watch.machine sup).run [.connect (some ('/' :: p)), .established true]).2.names = [p] ∧
      ∃ n, (machine.run [.connect (some ⟨true, '/' :: p⟩), .established true]).1.map (·.2) = [.did [], .did [.publish 0 n, .over 0]] ∧ n ≠ p := by
  refine ⟨rfl, p ++ p, rfl, fun h => hp ?_⟩
  have := congrArg List.length h
  rw [List.length_append] at this
  exact List.length_eq_zero_iff.1 (by omega)

/-! ### Frames -/

/-- **Frames are encoded exactly while an encoder is open**, with or without a connection. -/
theorem c121_encodes {tr : Trace} {s : State} (h : machine.Reach tr s) (ok : Sound tr) (k : Kind) :
    (step s (.input k)).1 = match (told k tr).id with
      | some i => .did [.encode k i]
      | none => .did [.unused k] := by
  have v := inv_reach h
  rw [← (v.core k).id]
  unfold step
  rw [if_neg (by simp [sound_dead v ok])]
  dsimp only
  cases enc k s <;> rfl

/-- So frames are encoded before connecting to a room, contrary to the comment. -/
theorem c121_private : (machine.run [.init .video true, .input .video]).1.map (·.2) = [.did [], .did [.encode .video 0]] := by decide

/-- **A frame goes to the track of the encoder that made it.** -/
theorem c121_writes {tr : Trace} {s : State} (h : machine.Reach tr s) (ok : Sound tr) (k : Kind) (i : Nat) :
    Event.write k i ∈ events (step s (.encoded k)).1 ↔ (told k tr).id = some i := by
  have v := inv_reach h
  rw [← (v.core k).id]
  unfold step
  rw [if_neg (by simp [sound_dead v ok])]
  dsimp only
  cases he : enc k s with
  | none => simp [events]
  | some e =>
    constructor
    · intro hm
      rcases List.mem_append.1 hm with hm | hm
      · unfold encoded at hm
        rcases List.mem_append.1 hm with hm | hm
        · exfalso
          cases hp : e.pending with
          | none =>
            rw [hp] at hm
            cases hm
          | some b' =>
            rw [hp] at hm
            obtain ⟨_, _, hx⟩ := (publishTo_spec k (setEnc k s (some { id := e.id, config := e.config, pending := none })) b'
              (by rw [setEnc_casts]; exact (v.basic.pend k e b' he hp).1)).2.2.2.2.2.1 _ hm
            cases hx
        · cases List.mem_singleton.1 hm
          rfl
      · unfold overs at hm
        obtain ⟨_, _, hm⟩ := List.mem_map.1 hm
        cases hm
    · intro hi
      cases hi
      exact List.mem_append_left _ (List.mem_append_right _ (List.mem_singleton.2 rfl))

/-! ### Leaving -/

/-- Leaving, or connecting elsewhere, does not change what is listed or written. -/
theorem c121_leave {tr : Trace} {s : State} (h : machine.Reach tr s) (ok : Sound tr) (u : Option Url) :
    (step s (.connect u)).1 = .did [] ∧ ∀ k b, shown k (tr ++ [(.connect u, .did [])]) b = shown k tr b := by
  have v := inv_reach h
  refine ⟨?_, fun k b => shown_snoc k tr _ b⟩
  unfold step
  rw [if_neg (by simp [sound_dead v ok])]

/-- After leaving, the camera is still listed and its frames are written; after connecting elsewhere it is listed in both broadcasts. -/
theorem c121_left : (machine.run (exPub ++ [.connect none, .input .video, .encoded .video])).1.map (·.2) |>.drop 5 |>
      (· = [.did [], .did [.encode .video 0], .did [.write .video 0]]) := by
  decide

theorem c121_both : (∀ b, b < 2 → shown .video (machine.run (exPub ++ [.connect (some ⟨true, ['/', 'b']⟩), .established true])).1 b = [0]) ∧
    ¬ Ended (machine.run (exPub ++ [.connect (some ⟨true, ['/', 'b']⟩), .established true])).1 0 := by
  refine ⟨by decide, ?_⟩
  unfold Ended
  decide

/-! ### Panics -/

/-- **The first panic** is exactly when a session is there for a URL whose path does not start with a slash. -/
theorem c121_panic {tr : Trace} {s : State} (h : machine.Reach tr s) (ok : Sound tr) (op : Op) :
    (step s op).1 = .panic ↔ op = .established true ∧ ∃ u, asked tr = some u ∧ u.http = true ∧ u.path.head? ≠ some '/' := by
  have v := inv_reach h
  rw [← v.asked]
  unfold step
  rw [if_neg (by simp [sound_dead v ok])]
  cases op with
  | established ok =>
    dsimp only
    cases hc : s.connect with
    | none => simp
    | some u =>
      dsimp only
      cases ok with
      | false => simp
      | true =>
        rw [if_pos rfl]
        cases hh : u.http with
        | false => simp [hh]
        | true =>
          rw [if_pos rfl]
          unfold connected
          split
          · rename_i r hr
            split at hr
            · rename_i p hp
              simp [did, hp]
            · cases hr
          · rename_i hr
            split at hr
            · cases hr
            · rename_i hp
              refine ⟨fun _ => ⟨rfl, u, rfl, hh, ?_⟩, fun _ => rfl⟩
              intro h0
              cases hpp : u.path with
              | nil =>
                rw [hpp] at h0
                cases h0
              | cons c l =>
                rw [hpp] at h0
                cases h0
                exact hp l hpp
  | connect u => simp
  | init k' ok => cases ok <;> simp [did]
  | input k' =>
    dsimp only
    cases enc k' s <;> simp
  | close k' => simp [did]
  | configured k' =>
    dsimp only
    cases enc k' s <;> simp
  | encoded k' =>
    dsimp only
    cases enc k' s <;> simp [did]
  | reap b k' i =>
    dsimp only
    cases reap b k' i s <;> simp [did]

/-- Paths of URLs with the schemes `http` and `https` start with a slash, so nothing panics. -/
theorem c121_sound {tr : Trace} {s : State} (h : machine.Reach tr s)
    (hu : ∀ u o, (.connect (some u), o) ∈ tr → u.http = true → u.path.head? = some '/') : Sound tr := by
  have key : (∀ u o, (.connect (some u), o) ∈ tr → u.http = true → u.path.head? = some '/') →
      Sound tr ∧ ∀ u, asked tr = some u → u.http = true → u.path.head? = some '/' := by
    refine Machine.Reach.induct (M := machine) (P := fun tr _ => (∀ u o, (.connect (some u), o) ∈ tr → u.http = true → u.path.head? = some '/') →
      Sound tr ∧ ∀ u, asked tr = some u → u.http = true → u.path.head? = some '/') ?_ ?_ h
    · exact fun _ => ⟨fun e he => (nomatch he), fun u hu => (nomatch hu)⟩
    · intro tr s op hr ih hu
      obtain ⟨ok, ha⟩ := ih fun u o hm => hu u o (List.mem_append_left _ hm)
      constructor
      · intro e he
        rcases List.mem_append.1 he with he | he
        · exact ok e he
        · rw [List.mem_singleton.1 he]
          intro hp
          obtain ⟨_, u, h1, h2, h3⟩ := (c121_panic hr ok op).1 hp
          exact h3 (ha u h1 h2)
      · intro u
        show asked (tr ++ [(op, (step s op).1)]) = some u → _
        rw [asked_snoc]
        have hm : (op, (step s op).1) ∈ tr ++ [(op, (step s op).1)] := List.mem_append_right _ (List.mem_singleton.2 rfl)
        have hu' := hu
        change ∀ u o, (Op.connect (some u), o) ∈ tr ++ [(op, (step s op).1)] → _ at hu'
        generalize (step s op).1 = o at hm hu'
        cases op with
        | connect w =>
          cases o with
          | did l =>
            intro hw
            change w = some u at hw
            subst hw
            exact hu' u _ hm
          | _ => exact ha u
        | established b => cases o <;> first | exact ha u | exact fun h => (nomatch h)
        | _ => exact ha u
  exact (key hu).1

/-- After a panic every call panics. -/
theorem c121_dead {tr : Trace} {s : State} (h : machine.Reach tr s) (hp : ¬ Sound tr) (op : Op) : (step s op).1 = .panic := by
  have hd : s.dead = true := by
    refine (inv_reach h).dead.2 ?_
    simpa [Sound] using hp
  unfold step
  rw [if_pos hd]

/-- **What can happen**: connecting ends only once and successfully only for `http` and `https`; only an open encoder has a configuration
or frames; a task runs only for a track that is listed and closed.  Everything else can always happen. -/
theorem c121_invalid {tr : Trace} {s : State} (h : machine.Reach tr s) (ok : Sound tr) (op : Op) :
    (step s op).1 = .invalid ↔ match op with
      | .established true => ∀ u, asked tr = some u → u.http = false
      | .established false => asked tr = none
      | .configured k => (told k tr).id = none
      | .encoded k => (told k tr).id = none
      | .reap b k i => i ∈ shown k tr b → (told k tr).id = some i
      | _ => False := by
  have v := inv_reach h
  rw [← v.asked]
  unfold step
  rw [if_neg (by simp [sound_dead v ok])]
  cases op with
  | established ok =>
    dsimp only
    cases hc : s.connect with
    | none => cases ok <;> simp
    | some u =>
      dsimp only
      cases ok with
      | false => simp
      | true =>
        rw [if_pos rfl]
        cases hh : u.http with
        | false => simp [hh]
        | true =>
          rw [if_pos rfl]
          cases connected _ u.path <;> simp [did, hh]
  | connect u => simp
  | init k' ok => cases ok <;> simp [did]
  | input k' =>
    dsimp only
    cases enc k' s <;> simp
  | close k' => simp [did]
  | configured k' =>
    dsimp only
    rw [← (v.core k').id]
    cases enc k' s <;> simp
  | encoded k' =>
    dsimp only
    rw [← (v.core k').id]
    cases enc k' s <;> simp [did]
  | reap b k' i =>
    dsimp only
    rw [← v.shown, ← (v.core k').task, ← (v.core k').id]
    unfold reap
    by_cases hm : (b, k', i) ∈ s.tasks
    · rw [if_pos hm]
      by_cases hi : (enc k' s).map (·.id) = some i
      · rw [if_pos hi]
        simp [hi]
      · rw [if_neg hi]
        exact ⟨fun h => (nomatch h), fun h => absurd (h hm) hi⟩
    · rw [if_neg hm]
      simp [hm]

/-- **Errors** are those of connecting and of encoders that the browser does not support; they change neither tracks nor catalogs. -/
theorem c121_err {tr : Trace} {s : State} (h : machine.Reach tr s) (ok : Sound tr) (op : Op) :
    (step s op).1 = .err ↔ (∃ k, op = .init k false) ∨ (op = .established false ∧ asked tr ≠ none) := by
  have v := inv_reach h
  rw [← v.asked]
  unfold step
  rw [if_neg (by simp [sound_dead v ok])]
  cases op with
  | established ok =>
    dsimp only
    cases hc : s.connect with
    | none => simp
    | some u =>
      dsimp only
      cases ok with
      | false => simp
      | true =>
        rw [if_pos rfl]
        cases hh : u.http with
        | false => simp
        | true =>
          rw [if_pos rfl]
          cases connected _ u.path <;> simp [did]
  | connect u => simp
  | init k' ok => cases ok <;> simp [did]
  | input k' =>
    dsimp only
    cases enc k' s <;> simp
  | close k' => simp [did]
  | configured k' =>
    dsimp only
    cases enc k' s <;> simp
  | encoded k' =>
    dsimp only
    cases enc k' s <;> simp [did]
  | reap b k' i =>
    dsimp only
    cases reap b k' i s <;> simp [did]

/-! ### Strengthened -/

/-- What is listed of an open track, and how often. -/
structure Extra (k : Kind) (t : Told) (s : State) : Prop where
  known : ∀ b i, i ∈ listed k s b → t.id = some i → t.config = true
  once : ∀ b, (listed k s b).Nodup

theorem nodup_snoc {l : List Nat} {i : Nat} (h : l.Nodup) (hi : i ∉ l) : (l ++ [i]).Nodup := by
  rw [List.nodup_append]
  refine ⟨h, by simp, ?_⟩
  rintro x hx y hy rfl
  rw [List.mem_singleton.1 hy] at hx
  exact hi hx

theorem extra_pub {k : Kind} {b : Nat} {e : Enc} {s t : State} (h : ∀ b, (listed k s b).Nodup) (p : Pub k b e s t)
    (hn : e.id ∉ listed k s b) (b' : Nat) : (listed k t b').Nodup := by
  cases hc : e.config with
  | true =>
    rw [(p.known hc).2.1]
    split
    · rename_i hb
      subst hb
      exact nodup_snoc (h b') hn
    · exact h b'
  | false =>
    rw [(p.unknown hc).2.1]
    exact h b'

theorem extra_reach {tr : Trace} {s : State} (h : machine.Reach tr s) (k : Kind) : Extra k (told k tr) s := by
  refine Machine.Reach.induct (M := machine) (P := fun tr s => Extra k (told k tr) s) ?_ ?_ h
  · exact ⟨fun b i hm => (nomatch hm), fun b => List.nodup_nil⟩
  · intro tr s op hr ih
    show Extra k (told k (tr ++ [(op, (step s op).1)])) (step s op).2
    have v := inv_reach hr
    cases hd : s.dead with
    | true =>
      have hs : step s op = (.panic, s) := by
        unfold step
        rw [if_pos hd]
      have ht : ∀ x, tell k x (op, .panic) = x := by
        intro x
        cases op with
        | init k b => cases b <;> rfl
        | established b => cases b <;> rfl
        | _ => rfl
      rw [hs, told_snoc, ht]
      exact ih
    | false =>
      have c := v.core k
      have g := chg_step v.basic hd op k
      have v' := (inv_reach (Machine.Reach.step (M := machine) op hr)).core k
      change Core k (told k (tr ++ [(op, (step s op).1)])) (step s op).2 at v'
      rw [told_snoc] at v' ⊢
      generalize told k tr = x at ih c v' ⊢
      generalize (step s op).2 = t at g v' ⊢
      generalize (step s op).1 = o at g v' ⊢
      cases g with
      | same _ _ hs _ ht =>
        rw [ht]
        exact ⟨fun b i => by rw [hs.2.2.1]; exact ih.known b i, fun b => by rw [hs.2.2.1]; exact ih.once b⟩
      | opened l _ _ h3 _ _ =>
        refine ⟨fun b i hm hi => ?_, fun b => by rw [h3]; exact ih.once b⟩
        have e1 : (tell k x (.init k true, .did l)).id = some x.used := by unfold tell; dsimp only; rw [if_pos rfl]
        rw [e1] at hi
        cases hi
        rw [h3] at hm
        exact absurd (c.small _ _ (c.member _ _ hm)).2 (Nat.lt_irrefl _)
      | closed l _ _ h3 _ _ =>
        refine ⟨fun b i hm hi => ?_, fun b => by rw [h3]; exact ih.once b⟩
        have e1 : (tell k x (.close k, .did l)).id = none := by unfold tell; dsimp only; rw [if_pos rfl]
        rw [e1] at hi
        cases hi
      | configured e l _ _ _ h3 _ _ =>
        refine ⟨fun b i hm hi => ?_, fun b => by rw [h3]; exact ih.once b⟩
        unfold tell
        dsimp only
        rw [if_pos rfl]
      | joined l _ hn hp =>
        cases he : enc k s with
        | none =>
          have hi : x.id = none := by rw [← c.id, he]; rfl
          have e1 : tell k x (.established true, .did l) = { x with casts := x.casts + 1 } := by
            unfold tell
            dsimp only
            rw [hi]
          rw [e1]
          have hs := hn he
          exact ⟨fun b i => by rw [hs.2.2.1]; exact ih.known b i, fun b => by rw [hs.2.2.1]; exact ih.once b⟩
        | some e =>
          have hi : x.id = some e.id := by rw [← c.id, he]; rfl
          have e1 : (tell k x (.established true, .did l)).id = x.id ∧ (tell k x (.established true, .did l)).config = x.config := by
            unfold tell
            dsimp only
            rw [hi]
            exact ⟨rfl, rfl⟩
          refine ⟨fun b i hm hii => ?_, extra_pub ih.once (hp e he) ?_⟩
          · rw [e1.2]
            cases hc : e.config with
            | true => exact (c.config e he).symm.trans hc
            | false =>
              rw [((hp e he).unknown hc).2.1] at hm
              exact ih.known b i hm (e1.1 ▸ hii)
          · intro hm
            exact Nat.lt_irrefl _ (listed_bound hm)
      | idle e l _ _ hs _ =>
        have e1 : (tell k x (.encoded k, .did l)).id = x.id ∧ (tell k x (.encoded k, .did l)).config = x.config := by
          unfold tell
          dsimp only
          rw [if_pos rfl]
          exact ⟨rfl, rfl⟩
        refine ⟨fun b i => ?_, fun b => by rw [hs.2.2.1]; exact ih.once b⟩
        rw [hs.2.2.1, e1.1, e1.2]
        exact ih.known b i
      | encoded e b' l h0 hp p _ =>
        have e1 : (tell k x (.encoded k, .did l)).id = x.id ∧ (tell k x (.encoded k, .did l)).config = x.config := by
          unfold tell
          dsimp only
          rw [if_pos rfl]
          exact ⟨rfl, rfl⟩
        refine ⟨fun b i hm hii => ?_, extra_pub ih.once p (c.pend e b' h0 hp).2⟩
        rw [e1.2]
        cases hc : e.config with
        | true => exact (c.config e h0).symm.trans hc
        | false =>
          rw [(p.unknown hc).2.1] at hm
          exact ih.known b i hm (e1.1 ▸ hii)
      | reaped b j l _ _ _ _ h3 _ _ =>
        refine ⟨fun b' i hm hi => ?_, fun b' => ?_⟩
        · rw [h3] at hm
          split at hm
          · exact ih.known b' i (List.mem_filter.1 hm).1 hi
          · exact ih.known b' i hm hi
        · rw [h3]
          split
          · exact (ih.once b').filter _
          · exact ih.once b'

/-- **An open track is listed only when the configuration of its encoder is known.** -/
theorem c121_known {tr : Trace} {s : State} (h : machine.Reach tr s) (k : Kind) (b i : Nat) (hi : i ∈ shown k tr b)
    (ho : (told k tr).id = some i) : (told k tr).config = true :=
  (extra_reach h k).known b i ((inv_reach h).shown k b ▸ hi) ho

/-- **A track is listed once.** -/
theorem c121_once {tr : Trace} {s : State} (h : machine.Reach tr s) (k : Kind) (b : Nat) : (shown k tr b).Nodup :=
  (inv_reach h).shown k b ▸ (extra_reach h k).once b

/-- **A broadcast that is over stays so**: it ends once and lists nothing any more. -/
theorem c121_ended {tr : Trace} {s : State} (h : machine.Reach tr s) (b : Nat) (he : Ended tr b) (op : Op) :
    Event.over b ∉ events (step s op).1 ∧ ∀ k, shown k (tr ++ [(op, (step s op).1)]) b = [] := by
  have hh := (ended_iff h b).1 he
  refine ⟨fun hm => ?_, fun k => ?_⟩
  · obtain ⟨_, h2 | h2, _⟩ := (over_step (inv_reach h).basic op b).1 hm
    · rw [hh.2] at h2
      cases h2
    · omega
  · obtain ⟨e, hm, ho⟩ := he
    have he' : Ended (tr ++ [(op, (step s op).1)]) b := ⟨e, List.mem_append_left _ hm, ho⟩
    exact (((c121_over (Machine.Reach.step (M := machine) op h) b).1 he').2 k).2

example : Ended (machine.run (exPub ++ [.close .video, .reap 0 .video 0])).1 0 := by
  unfold Ended
  decide

end Verif.Props.WasmPublish
