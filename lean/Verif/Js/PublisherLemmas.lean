import Verif.Js.Publisher
import Verif.Js.AnnouncedLemmas

/-!
# Invariants of publishing in the browser
-/

set_option autoImplicit false

namespace Verif.Js.Publisher

open Verif

/-! ## The queue inside -/

/-- A step of the publisher as a step of its queue. -/
def projE : Op × Out → Option (Announced.Op × Announced.Out)
  | (.publish path _, .ok) => some (.write ⟨path, true⟩, .ok)
  | (.run _, .ended path) => some (.write ⟨path, false⟩, .ok)
  | (.interest pre, .queue o) => some (.consume pre, o)
  | (.next c, .queue o) => some (.next c, o)
  | (.resume c, .queue o) => some (.resume c, o)
  | _ => none

def proj (tr : Trace) : Announced.Trace := tr.filterMap projE

theorem proj_snoc (tr : Trace) (e : Op × Out) : proj (tr ++ [e]) = proj tr ++ (projE e).toList := by
  unfold proj
  rw [List.filterMap_append]
  cases h : projE e <;> simp [h]

theorem announcements_eq (tr : Trace) : announcements tr = Announced.written (proj tr) := by
  unfold announcements Announced.written proj
  rw [List.filterMap_filterMap]
  congr 1
  funext e
  obtain ⟨op, o⟩ := e
  cases op <;> cases o <;> simp [projE]

theorem sent_eq (tr : Trace) (c : Nat) : sent tr c = Announced.got (proj tr) c := by
  unfold sent Announced.got Announced.answers proj
  rw [List.filterMap_filterMap, List.filterMap_filterMap]
  congr 1
  funext e
  obtain ⟨op, o⟩ := e
  cases op <;> cases o <;> simp [projE, Announced.answer] <;>
    (rename_i c' x; cases x <;> by_cases h : c' = c <;> simp [h, Announced.Out.announce?])

theorem streams_snoc (tr : Trace) (op : Op) (o : Out) : streams (tr ++ [(op, o)]) =
    streams tr ++ (match op, o with | .interest pre, .queue (.handle _) => [pre] | _, _ => []) := by
  unfold streams
  rw [List.filterMap_append]
  congr 1
  cases op <;> cases o <;> try rfl
  rename_i x
  cases x <;> rfl

theorem announcements_snoc (tr : Trace) (op : Op) (o : Out) : announcements (tr ++ [(op, o)]) =
    announcements tr ++ (match op, o with
      | .publish path _, .ok => [⟨path, true⟩]
      | .run _, .ended path => [⟨path, false⟩]
      | _, _ => []) := by
  unfold announcements
  rw [List.filterMap_append]
  congr 1
  cases op <;> cases o <;> rfl

theorem published_snoc (tr : Trace) (op : Op) (o : Out) : published (tr ++ [(op, o)]) =
    published tr ++ (match op, o with | .publish path b, .ok => [(path, b)] | _, _ => []) := by
  unfold published
  rw [List.filterMap_append]
  congr 1
  cases op <;> cases o <;> rfl

theorem over_snoc (tr : Trace) (op : Op) (o : Out) (b : Nat) : Over (tr ++ [(op, o)]) b ↔
    Over tr b ∨ (op = .over b ∧ o = .ok) := by
  unfold Over
  rw [List.mem_append, List.mem_singleton, Prod.mk.injEq]
  constructor
  · rintro (h | ⟨h1, h2⟩)
    · exact .inl h
    · exact .inr ⟨h1.symm, h2.symm⟩
  · rintro (h | ⟨h1, h2⟩)
    · exact .inl h
    · exact .inr ⟨h1.symm, h2.symm⟩

theorem takenBack_snoc (tr : Trace) (op : Op) (o : Out) (t : Nat) : TakenBack (tr ++ [(op, o)]) t ↔
    TakenBack tr t ∨ ∃ path, op = .run t ∧ o = .ended path := by
  unfold TakenBack
  constructor
  · rintro ⟨p, h⟩
    rcases List.mem_append.mp h with h | h
    · exact .inl ⟨p, h⟩
    · simp only [List.mem_singleton, Prod.mk.injEq] at h
      exact .inr ⟨p, h.1.symm, h.2.symm⟩
  · rintro (⟨p, h⟩ | ⟨p, rfl, rfl⟩)
    · exact ⟨p, List.mem_append_left _ h⟩
    · exact ⟨p, by simp⟩

theorem flags_append (as bs : List Announce) (p : Str) : flags (as ++ bs) p = flags as p ++ flags bs p :=
  List.filterMap_append ..

theorem flags_one (p q : Str) (b : Bool) :
    flags [⟨p, b⟩] q = if p = q then [b] else [] := by
  unfold flags
  by_cases h : p = q <;> simp [h]

/-! ## The map -/

theorem get_delete (m : List (Str × Nat)) (p q : Str) :
    get (delete m p) q = if p = q then none else get m q := by
  unfold get delete
  rw [List.find?_filter]
  by_cases h : p = q
  · subst h
    simp
  · rw [if_neg h]
    congr 2
    funext e
    by_cases he : e.1 = q
    · subst he
      have hne : ¬ e.1 = p := fun x => h x.symm
      simp [hne]
    · simp [he]

theorem get_put (m : List (Str × Nat)) (p q : Str) (b : Nat) :
    get (put m p b) q = if p = q then some b else get m q := by
  unfold put
  by_cases h : p = q
  · subst h
    simp [get]
  · have := get_delete m p q
    rw [if_neg h] at this ⊢
    rw [← this]
    simp [get, h]

/-! ## The invariant -/

structure Inv (tr : Trace) (s : State) : Prop where
  reach : Announced.machine.Reach (proj tr) s.announced
  live : s.announced.status = .live
  streams : streams tr = Announced.prefixes (proj tr)
  over : ∀ b, b ∈ s.over ↔ Over tr b
  tasks : s.tasks.map (fun k => (k.path, k.broadcast)) = published tr
  done : ∀ t : Nat, (∃ k, s.tasks[t]? = some k ∧ k.done = true) ↔ TakenBack tr t
  current : ∀ p b, get s.broadcasts p = some b → ∃ t : Nat, s.tasks[t]? = some ⟨p, b, false⟩ ∧
    ∀ (t' : Nat) k, t < t' → s.tasks[t']? = some k → k.path ≠ p
  last : ∀ p, (get s.broadcasts p).isSome ↔ (flags (announcements tr) p).getLast? = some true
  ups : ∀ p, (flags (announcements tr) p).count true =
    s.tasks.countP fun k => k.path = p
  downs : ∀ p, (flags (announcements tr) p).count false =
    s.tasks.countP fun k => k.path = p ∧ k.done = true

theorem inv_init : Inv [] init :=
  ⟨Machine.Reach.init, rfl, rfl, fun b => by simp [init, Over], rfl,
    fun t => by simp [init, TakenBack], fun p b h => by simp [init, get] at h,
    fun p => by simp [init, get, announcements, flags], fun p => rfl, fun p => rfl⟩

/-- A step that neither publishes nor takes back. -/
theorem inv_other {tr : Trace} {s s' : State} (i : Inv tr s) (op : Op) (o : Out)
    (h1 : announcements (tr ++ [(op, o)]) = announcements tr)
    (h2 : published (tr ++ [(op, o)]) = published tr)
    (h3 : ∀ t, TakenBack (tr ++ [(op, o)]) t ↔ TakenBack tr t)
    (h4 : ∀ b, b ∈ s'.over ↔ Over (tr ++ [(op, o)]) b)
    (h5 : Announced.machine.Reach (proj (tr ++ [(op, o)])) s'.announced)
    (h6 : s'.announced.status = .live)
    (h7 : Publisher.streams (tr ++ [(op, o)]) = Announced.prefixes (proj (tr ++ [(op, o)])))
    (h8 : s'.tasks = s.tasks) (h9 : s'.broadcasts = s.broadcasts) : Inv (tr ++ [(op, o)]) s' := by
  refine ⟨h5, h6, h7, h4, by rw [h8, h2]; exact i.tasks, ?_, ?_, ?_, ?_, ?_⟩
  · intro t
    rw [h8, h3]
    exact i.done t
  · rw [h8, h9]
    exact i.current
  · rw [h9, h1]
    exact i.last
  · rw [h8, h1]
    exact i.ups
  · rw [h8, h1]
    exact i.downs

theorem write_live {s : Announced.State} (h : s.status = .live) (a : Announce) :
    (Announced.step s (.write a)).1 = .ok ∧ (Announced.step s (.write a)).2.status = .live := by
  simp [Announced.step, h]

theorem onHandle_status (s : Announced.State) (c : Nat)
    (f : Announced.Handle → Announced.Out × Announced.Handle) :
    (Announced.onHandle s c f).2.status = s.status := by
  unfold Announced.onHandle
  cases s.handles[c]? <;> rfl

/-- The queue writes an announcement. -/
theorem announce_reach {tr : Trace} {s : State} (i : Inv tr s) (p : Str) (b : Bool) :
    Announced.machine.Reach (proj tr ++ [(.write ⟨p, b⟩, .ok)]) (announce s.announced p b) ∧
    (announce s.announced p b).status = .live := by
  obtain ⟨h1, h2⟩ := write_live i.live ⟨p, b⟩
  refine ⟨?_, h2⟩
  have := Machine.Reach.step (M := Announced.machine) (.write ⟨p, b⟩) i.reach
  have e : (Announced.machine.step s.announced (.write ⟨p, b⟩)).1 = .ok := h1
  rw [e] at this
  exact this

theorem countP_set_done (ts : List Task) (t : Nat) (k : Task) (hk : ts[t]? = some k)
    (hd : k.done = false) (p : Str) :
    (ts.set t { k with done := true }).countP (fun k => k.path = p) =
      ts.countP (fun k => k.path = p) ∧
    (ts.set t { k with done := true }).countP (fun k => k.path = p ∧ k.done = true) =
      ts.countP (fun k => k.path = p ∧ k.done = true) + if k.path = p then 1 else 0 := by
  induction ts generalizing t with
  | nil => simp at hk
  | cons x ts ih =>
    cases t with
    | zero =>
      simp only [List.getElem?_cons_zero, Option.some.injEq] at hk
      subst hk
      by_cases hp : x.path = p <;> simp [hd, hp]
    | succ t =>
      rw [List.getElem?_cons_succ] at hk
      obtain ⟨h1, h2⟩ := ih t hk
      rw [List.set_cons_succ, List.countP_cons, List.countP_cons, List.countP_cons, List.countP_cons,
        h1, h2]
      refine ⟨rfl, ?_⟩
      omega

theorem step_inv {tr : Trace} {s : State} (i : Inv tr s) (op : Op) :
    Inv (tr ++ [(op, (step s op).1)]) (step s op).2 := by
  have hq : ∀ (op' : Announced.Op), (Announced.step s.announced op').2.status = .live →
      ∀ op : Op, projE (op, (onQueue s op').1) =
        some (op', (Announced.step s.announced op').1) →
      (∀ p b, op ≠ .publish p b) → (∀ t, op ≠ .run t) → (∀ b, op ≠ .over b) →
      Publisher.streams (tr ++ [(op, (onQueue s op').1)]) =
        Announced.prefixes (proj tr ++ [(op', (Announced.step s.announced op').1)]) →
      Inv (tr ++ [(op, (onQueue s op').1)]) (onQueue s op').2 := by
    intro op' hl op hp n1 n2 n3 hs
    refine inv_other i _ _ ?_ ?_ ?_ ?_ ?_ hl ?_ rfl rfl
    · rw [announcements_snoc]
      cases op <;> simp_all
    · rw [published_snoc]
      cases op <;> simp_all
    · intro t
      rw [takenBack_snoc]
      simp [n2 t]
    · intro b
      rw [over_snoc]
      simp only [n3 b, false_and, or_false]
      exact i.over b
    · rw [proj_snoc, hp]
      exact Machine.Reach.step (M := Announced.machine) op' i.reach
    · rw [proj_snoc, hp]
      exact hs
  cases op with
  | publish p b =>
    obtain ⟨r1, r2⟩ := announce_reach i p true
    rw [step]
    have ha : announcements (tr ++ [(.publish p b, .ok)]) = announcements tr ++ [⟨p, true⟩] := by
      rw [announcements_snoc]
    have hlen : (published tr).length = s.tasks.length := by rw [← i.tasks, List.length_map]
    refine ⟨?_, r2, ?_, ?_, ?_, ?_, ?_, ?_, ?_, ?_⟩
    · rw [proj_snoc]
      exact r1
    · rw [proj_snoc, streams_snoc]
      simp only [projE, Option.toList_some, List.append_nil]
      rw [Announced.prefixes_snoc]
      exact i.streams
    · intro x
      rw [over_snoc]
      simp [i.over]
    · rw [published_snoc, ← i.tasks]
      simp
    · intro t
      rw [takenBack_snoc, ← i.done]
      simp only [reduceCtorEq, false_and, exists_false, or_false]
      constructor
      · rintro ⟨k, hk, hd⟩
        rcases Nat.lt_trichotomy t s.tasks.length with hlt | rfl | hgt
        · rw [List.getElem?_append_left hlt] at hk
          exact ⟨k, hk, hd⟩
        · simp only [List.getElem?_concat_length, Option.some.injEq] at hk
          subst hk
          cases hd
        · rw [List.getElem?_eq_none (by simp; omega)] at hk
          cases hk
      · rintro ⟨k, hk, hd⟩
        exact ⟨k, by rw [List.getElem?_append_left (List.getElem?_eq_some_iff.mp hk).1]; exact hk, hd⟩
    · intro q x hx
      dsimp only at hx ⊢
      rw [get_put] at hx
      by_cases hpq : p = q
      · rw [if_pos hpq] at hx
        cases hx
        subst hpq
        refine ⟨s.tasks.length, by simp, fun t' k ht hk => ?_⟩
        rw [List.getElem?_eq_none (by simp; omega)] at hk
        cases hk
      · rw [if_neg hpq] at hx
        obtain ⟨t, ht, hlater⟩ := i.current q x hx
        refine ⟨t, ?_, fun t' k htt hk => ?_⟩
        · rw [List.getElem?_append_left (List.getElem?_eq_some_iff.mp ht).1]
          exact ht
        · rcases Nat.lt_trichotomy t' s.tasks.length with hlt | rfl | hgt
          · rw [List.getElem?_append_left hlt] at hk
            exact hlater t' k htt hk
          · simp only [List.getElem?_concat_length, Option.some.injEq] at hk
            subst hk
            exact hpq
          · rw [List.getElem?_eq_none (by simp; omega)] at hk
            cases hk
    · intro q
      dsimp only
      rw [get_put, ha, flags_append, flags_one]
      by_cases hpq : p = q
      · simp [hpq]
      · rw [if_neg hpq, if_neg hpq, List.append_nil]
        exact i.last q
    · intro q
      dsimp only
      rw [ha, flags_append, flags_one, List.count_append, i.ups, List.countP_append]
      by_cases hpq : p = q <;> simp [hpq]
    · intro q
      dsimp only
      rw [ha, flags_append, flags_one, List.count_append, i.downs, List.countP_append]
      by_cases hpq : p = q <;> simp [hpq]
  | over b =>
    rw [step]
    refine inv_other i _ _ ?_ ?_ ?_ ?_ ?_ i.live ?_ rfl rfl
    · rw [announcements_snoc]
      simp
    · rw [published_snoc]
      simp
    · intro t
      rw [takenBack_snoc]
      simp
    · intro x
      rw [over_snoc]
      simp only [List.mem_cons, i.over, Op.over.injEq, and_true]
      constructor
      · rintro (rfl | h)
        · exact .inr rfl
        · exact .inl h
      · rintro (h | rfl)
        · exact .inr h
        · exact .inl rfl
    · rw [proj_snoc]
      simpa [projE] using i.reach
    · rw [proj_snoc, streams_snoc]
      simpa [projE] using i.streams
  | run t =>
    have hinv : Inv (tr ++ [(.run t, .invalid)]) s := by
      refine inv_other i _ _ ?_ ?_ ?_ ?_ ?_ i.live ?_ rfl rfl
      · rw [announcements_snoc]
        simp
      · rw [published_snoc]
        simp
      · intro t
        rw [takenBack_snoc]
        simp
      · intro x
        rw [over_snoc]
        simp [i.over]
      · rw [proj_snoc]
        simpa [projE] using i.reach
      · rw [proj_snoc, streams_snoc]
        simpa [projE] using i.streams
    rw [step]
    cases hk : s.tasks[t]? with
    | none => exact hinv
    | some k =>
      dsimp only
      by_cases hd : k.done = false ∧ k.broadcast ∈ s.over
      · rw [if_pos hd]
        obtain ⟨r1, r2⟩ := announce_reach i k.path false
        have hlt : t < s.tasks.length := (List.getElem?_eq_some_iff.mp hk).1
        have ha : announcements (tr ++ [(.run t, .ended k.path)]) =
            announcements tr ++ [⟨k.path, false⟩] := by rw [announcements_snoc]
        have hget : ∀ t' : Nat, t' ≠ t →
            (s.tasks.set t { k with done := true })[t']? = s.tasks[t']? := fun t' ht =>
          List.getElem?_set_ne (fun e => ht e.symm)
        refine ⟨?_, r2, ?_, ?_, ?_, ?_, ?_, ?_, ?_, ?_⟩
        · rw [proj_snoc]
          exact r1
        · rw [proj_snoc, streams_snoc]
          simp only [projE, Option.toList_some, List.append_nil]
          rw [Announced.prefixes_snoc]
          exact i.streams
        · intro x
          rw [over_snoc]
          simp [i.over]
        · rw [published_snoc, ← i.tasks]
          dsimp only
          rw [List.append_nil]
          apply List.ext_getElem?
          intro t'
          rw [List.getElem?_map, List.getElem?_map]
          by_cases ht : t' = t
          · subst ht
            rw [List.getElem?_set_self hlt, hk]
            rfl
          · rw [hget t' ht]
        · intro t'
          rw [takenBack_snoc, ← i.done]
          dsimp only
          by_cases ht : t' = t
          · subst ht
            rw [List.getElem?_set_self hlt]
            simp
          · rw [hget t' ht]
            have : ¬ t = t' := fun e => ht e.symm
            simp [this]
        · intro q x hx
          dsimp only at hx ⊢
          rw [get_delete] at hx
          by_cases hpq : k.path = q
          · rw [if_pos hpq] at hx
            cases hx
          · rw [if_neg hpq] at hx
            obtain ⟨t', ht', hlater⟩ := i.current q x hx
            have hne : ∀ u k', s.tasks[u]? = some k' → k'.path = q → u ≠ t := by
              rintro u k' hu hq rfl
              rw [hk] at hu
              cases hu
              exact hpq hq
            refine ⟨t', ?_, fun u k' htu hu => ?_⟩
            · rw [hget t' (hne t' _ ht' rfl)]
              exact ht'
            · by_cases hut : u = t
              · subst hut
                rw [List.getElem?_set_self hlt] at hu
                cases hu
                exact hpq
              · rw [hget u hut] at hu
                exact hlater u k' htu hu
        · intro q
          dsimp only
          rw [get_delete, ha, flags_append, flags_one]
          by_cases hpq : k.path = q
          · simp [hpq]
          · rw [if_neg hpq, if_neg hpq, List.append_nil]
            exact i.last q
        · intro q
          dsimp only
          rw [ha, flags_append, flags_one, List.count_append, i.ups,
            (countP_set_done s.tasks t k hk hd.1 q).1]
          by_cases hpq : k.path = q <;> simp [hpq]
        · intro q
          dsimp only
          rw [ha, flags_append, flags_one, List.count_append, i.downs,
            (countP_set_done s.tasks t k hk hd.1 q).2]
          by_cases hpq : k.path = q <;> simp [hpq]
      · rw [if_neg hd]
        exact hinv
  | lookup p =>
    rw [step]
    refine inv_other i _ _ ?_ ?_ ?_ ?_ ?_ i.live ?_ rfl rfl
    · rw [announcements_snoc]
      simp
    · rw [published_snoc]
      simp
    · intro t
      rw [takenBack_snoc]
      simp
    · intro x
      rw [over_snoc]
      simp [i.over]
    · rw [proj_snoc]
      simpa [projE] using i.reach
    · rw [proj_snoc, streams_snoc]
      simpa [projE] using i.streams
  | interest pre =>
    rw [step]
    refine hq (.consume pre) i.live _ rfl (by simp) (by simp) (by simp) ?_
    rw [streams_snoc, Announced.prefixes_snoc, i.streams]
    rfl
  | next c =>
    rw [step]
    refine hq _ ?_ _ rfl (by simp) (by simp) (by simp) ?_
    · rw [Announced.step, onHandle_status]
      exact i.live
    · rw [streams_snoc, Announced.prefixes_snoc, i.streams]
      simp
  | resume c =>
    rw [step]
    refine hq _ ?_ _ rfl (by simp) (by simp) (by simp) ?_
    · rw [Announced.step, onHandle_status]
      exact i.live
    · rw [streams_snoc, Announced.prefixes_snoc, i.streams]
      simp

theorem inv_reach {tr : Trace} {s : State} (h : machine.Reach tr s) : Inv tr s :=
  Machine.Reach.induct (M := machine) (P := fun tr s => Inv tr s) inv_init
    (fun _ _ op _ i => step_inv i op) h

/-! ## Publishing every path once at a time -/

theorem Polite.init {tr : Trace} {e : Op × Out} (h : Polite (tr ++ [e])) : Polite tr := by
  intro before after p b o ht
  exact h before (after ++ [e]) p b o (by rw [ht]; simp)

theorem alternates_snoc {b : Bool} {l : List Bool} (h : Alternates b l) (x : Bool)
    (hx : x = match l.getLast? with | some y => !y | none => b) : Alternates b (l ++ [x]) := by
  induction l generalizing b with
  | nil => exact ⟨hx, trivial⟩
  | cons y l ih =>
    obtain ⟨h1, h2⟩ := h
    refine ⟨h1, ih h2 ?_⟩
    rw [hx, List.getLast?_cons]
    cases l.getLast? with
    | none => simp [h1]
    | some z => rfl

structure PInv (tr : Trace) (s : State) : Prop where
  undone : ∀ (t : Nat) k, s.tasks[t]? = some k → k.done = false →
    get s.broadcasts k.path = some k.broadcast
  unique : ∀ (t t' : Nat) k k', s.tasks[t]? = some k → s.tasks[t']? = some k' → k.done = false →
    k'.done = false → k.path = k'.path → t = t'
  alternates : ∀ p, Alternates true (flags (announcements tr) p)

theorem pinv_reach {tr : Trace} {s : State} (h : machine.Reach tr s) : Polite tr → PInv tr s := by
  refine Machine.Reach.induct (M := machine) (P := fun tr s => Polite tr → PInv tr s) ?_ ?_ h
  · exact fun _ => ⟨fun t k hk => by simp [init] at hk, fun t t' k k' hk => by simp [init] at hk,
      fun p => trivial⟩
  · intro tr s op hr ih hp
    have i := inv_reach hr
    have j := ih hp.init
    have same : ∀ o, announcements (tr ++ [(op, o)]) = announcements tr →
        ∀ s' : State, s'.tasks = s.tasks → s'.broadcasts = s.broadcasts →
        PInv (tr ++ [(op, o)]) s' := by
      intro o ha s' h1 h2
      exact ⟨by rw [h1, h2]; exact j.undone, by rw [h1]; exact j.unique,
        by rw [ha]; exact j.alternates⟩
    show PInv (tr ++ [(op, (step s op).1)]) (step s op).2
    cases op with
    | publish p b =>
      rw [step]
      have hback : ∀ (t : Nat) k, s.tasks[t]? = some k → k.path = p → k.done = true := by
        intro t k hk hpath
        have hpub : (published tr)[t]? = some (p, k.broadcast) := by
          rw [← i.tasks, List.getElem?_map, hk, ← hpath]
          rfl
        obtain ⟨k', hk', hd⟩ := (i.done t).mpr (hp tr [] p b _ rfl t _ hpub)
        rw [hk] at hk'
        cases hk'
        exact hd
      have hnone : get s.broadcasts p = none := by
        cases hg : get s.broadcasts p with
        | none => rfl
        | some x =>
          obtain ⟨t, ht, -⟩ := i.current p x hg
          have := hback t _ ht rfl
          cases this
      have snoc : ∀ (t : Nat) (k : Task), (s.tasks ++ [⟨p, b, false⟩])[t]? = some k →
          s.tasks[t]? = some k ∨ (t = s.tasks.length ∧ k = ⟨p, b, false⟩) := by
        intro t k hk
        rcases Nat.lt_trichotomy t s.tasks.length with hlt | rfl | hgt
        · rw [List.getElem?_append_left hlt] at hk
          exact .inl hk
        · simp only [List.getElem?_concat_length, Option.some.injEq] at hk
          exact .inr ⟨rfl, hk.symm⟩
        · rw [List.getElem?_eq_none (by simp; omega)] at hk
          cases hk
      refine ⟨?_, ?_, ?_⟩
      · intro t k hk hd
        dsimp only at hk ⊢
        rw [get_put]
        rcases snoc t k hk with hk' | ⟨-, rfl⟩
        · have : p ≠ k.path := by
            intro e
            rw [hback t k hk' e.symm] at hd
            cases hd
          rw [if_neg this]
          exact j.undone t k hk' hd
        · simp
      · intro t t' k k' hk hk' hd hd' hpath
        rcases snoc t k hk with hk | ⟨rfl, rfl⟩ <;> rcases snoc t' k' hk' with hk' | ⟨rfl, rfl⟩
        · exact j.unique t t' k k' hk hk' hd hd' hpath
        · rw [hback t k hk hpath] at hd
          cases hd
        · rw [hback t' k' hk' hpath.symm] at hd'
          cases hd'
        · rfl
      · intro q
        rw [announcements_snoc]
        dsimp only
        rw [flags_append, flags_one]
        by_cases hpq : p = q
        · subst hpq
          rw [if_pos rfl]
          refine alternates_snoc (j.alternates p) true ?_
          have hl := i.last p
          rw [hnone] at hl
          cases hg : (flags (announcements tr) p).getLast? with
          | none => rfl
          | some y =>
            cases y with
            | false => rfl
            | true => exact absurd (hl.mpr hg) (by simp)
        · rw [if_neg hpq, List.append_nil]
          exact j.alternates q
    | over b =>
      rw [step]
      exact same _ (by rw [announcements_snoc]; simp) _ rfl rfl
    | run t =>
      rw [step]
      cases hk : s.tasks[t]? with
      | none => exact same _ (by rw [announcements_snoc]; simp) _ rfl rfl
      | some k =>
        dsimp only
        by_cases hd : k.done = false ∧ k.broadcast ∈ s.over
        · rw [if_pos hd]
          have hlt : t < s.tasks.length := (List.getElem?_eq_some_iff.mp hk).1
          have hset : ∀ (u : Nat) (k' : Task), (s.tasks.set t { k with done := true })[u]? = some k' →
              k'.done = false → u ≠ t ∧ s.tasks[u]? = some k' := by
            intro u k' hu hud
            by_cases hut : u = t
            · subst hut
              rw [List.getElem?_set_self hlt] at hu
              cases hu
              cases hud
            · rw [List.getElem?_set_ne (fun e => hut e.symm)] at hu
              exact ⟨hut, hu⟩
          refine ⟨?_, ?_, ?_⟩
          · intro u k' hu hud
            obtain ⟨hut, hu⟩ := hset u k' hu hud
            dsimp only
            rw [get_delete, if_neg]
            · exact j.undone u k' hu hud
            · intro hpath
              exact hut (j.unique u t k' k hu hk hud hd.1 hpath.symm)
          · intro u u' k1 k2 h1 h2 d1 d2 hpath
            exact j.unique u u' k1 k2 (hset u k1 h1 d1).2 (hset u' k2 h2 d2).2 d1 d2 hpath
          · intro q
            rw [announcements_snoc]
            dsimp only
            rw [flags_append, flags_one]
            by_cases hpq : k.path = q
            · subst hpq
              rw [if_pos rfl]
              refine alternates_snoc (j.alternates _) false ?_
              have hl := (i.last k.path).mp (by rw [j.undone t k hk hd.1]; rfl)
              rw [hl]
              rfl
            · rw [if_neg hpq, List.append_nil]
              exact j.alternates q
        · rw [if_neg hd]
          exact same _ (by rw [announcements_snoc]; simp) _ rfl rfl
    | lookup p =>
      rw [step]
      exact same _ (by rw [announcements_snoc]; simp) _ rfl rfl
    | interest pre =>
      rw [step]
      exact same _ (by rw [announcements_snoc]; simp) _ rfl rfl
    | next c =>
      rw [step]
      exact same _ (by rw [announcements_snoc]; simp) _ rfl rfl
    | resume c =>
      rw [step]
      exact same _ (by rw [announcements_snoc]; simp) _ rfl rfl

end Verif.Js.Publisher
