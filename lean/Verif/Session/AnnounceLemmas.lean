import Verif.Session.AnnounceSpec
import Verif.Model.OriginLemmas
import Mathlib.Data.List.Nodup

/-!
# Invariants of announce streams
-/

set_option autoImplicit false

namespace Verif.Session.Announce

open Verif Verif.Session Verif.Session.Announce.Spec
open Verif.Model.Origin (Path)

theorem actives_snoc (l : List Msg) (m : Msg) (x : Path) :
    actives (l ++ [m]) x = actives l x + if m = .active x then 1 else 0 := by
  unfold actives
  rw [List.count_append, List.count_singleton]
  simp

theorem endeds_snoc (l : List Msg) (m : Msg) (x : Path) :
    endeds (l ++ [m]) x = endeds l x + if m = .ended x then 1 else 0 := by
  unfold endeds
  rw [List.count_append, List.count_singleton]
  simp

theorem wellFormed_nil : WellFormed [] := by
  intro l' hl' x
  rw [List.prefix_nil] at hl'
  subst hl'
  simp [actives, endeds]

theorem wellFormed_snoc {l : List Msg} {m : Msg} (h : WellFormed l)
    (hm : ∀ x, endeds (l ++ [m]) x ≤ actives (l ++ [m]) x ∧
      actives (l ++ [m]) x ≤ endeds (l ++ [m]) x + 1) : WellFormed (l ++ [m]) := by
  intro l' hl' x
  rw [List.prefix_concat_iff] at hl'
  rcases hl' with rfl | hl'
  · exact hm x
  · exact h l' hl' x

/-! ## The sender -/

namespace Sender

/-- The number of futures for a suffix. -/
def waiting (ts : List (Path × Nat)) (x : Path) : Nat := ts.countP fun e => e.1 == x

theorem waiting_append (a b : List (Path × Nat)) (x : Path) :
    waiting (a ++ b) x = waiting a x + waiting b x := List.countP_append

theorem waiting_one (y : Path) (bc : Nat) (x : Path) :
    waiting [(y, bc)] x = if y = x then 1 else 0 := by
  unfold waiting
  rw [List.countP_singleton]
  simp

theorem waiting_erase {ts : List (Path × Nat)} {i : Nat} {y : Path} {bc : Nat}
    (h : ts[i]? = some (y, bc)) (x : Path) :
    waiting ts x = waiting (ts.eraseIdx i) x + if y = x then 1 else 0 := by
  induction ts generalizing i with
  | nil => simp at h
  | cons e ts ih =>
    cases i with
    | zero =>
      simp only [List.getElem?_cons_zero, Option.some.injEq] at h
      subst h
      simp [waiting, List.countP_cons]
    | succ i =>
      rw [List.getElem?_cons_succ] at h
      have := ih h
      simp only [List.eraseIdx_cons_succ, waiting, List.countP_cons] at this ⊢
      omega

theorem sent_snoc (tr : List (Op × Out)) (e : Op × Out) : sent (tr ++ [e]) = sent tr ++ sent [e] := by
  simp [sent]

/-- What always holds. -/
structure Weak (l : List Msg) (s : State) : Prop where
  nodup : s.active.Nodup
  sub : ∀ x ∈ s.active, 0 < waiting s.tasks x
  running : s.stage = .running → ∀ x, actives l x = endeds l x + waiting s.tasks x
  draining : ∀ rest, s.stage = .draining rest → ∀ x, endeds l x + rest.count x ≤ actives l x
  always : ∀ x, endeds l x ≤ actives l x

theorem weak_step {tr : List (Op × Out)} {s : State} (h : Weak (sent tr) s) (op : Op) :
    Weak (sent (tr ++ [(op, (step s op).1)])) (step s op).2 := by
  have quiet : ∀ e : Op × Out, sent [e] = [] → Weak (sent (tr ++ [e])) s := by
    intro e he
    rw [sent_snoc, he, List.append_nil]
    exact h
  cases op with
  | announce y bc =>
    simp only [step]
    split
    · rename_i hst
      rw [sent_snoc]
      have hc : ∀ x, actives (sent tr ++ [.active y]) x = endeds (sent tr ++ [.active y]) x +
          waiting (s.tasks ++ [(y, bc)]) x := by
        intro x
        have := h.running hst x
        rw [actives_snoc, endeds_snoc, waiting_append, waiting_one]
        simp only [Msg.active.injEq, reduceCtorEq, if_false]
        omega
      refine ⟨?_, ?_, fun _ => hc, ?_, ?_⟩
      · simp only []
        split
        · exact h.nodup
        · rename_i hn
          rw [List.nodup_append]
          refine ⟨h.nodup, by simp, ?_⟩
          rintro a ha b hb rfl
          rw [List.mem_singleton] at hb
          subst hb
          exact hn ha
      · intro x hx
        simp only [] at hx ⊢
        rw [waiting_append, waiting_one]
        by_cases hxy : y = x
        · rw [if_pos hxy]; omega
        · have hx : x ∈ s.active := by
            split at hx
            · exact hx
            · rw [List.mem_append, List.mem_singleton] at hx
              rcases hx with hx | hx
              · exact hx
              · exact absurd hx.symm hxy
          have := h.sub x hx
          omega
      · intro rest hr
        simp only [] at hr
        rw [hst] at hr
        cases hr
      · intro x
        have := hc x
        show endeds (sent tr ++ [.active y]) x ≤ actives (sent tr ++ [.active y]) x
        omega
    · exact quiet _ rfl
  | exhausted order =>
    simp only [step]
    (repeat' split) <;> try exact quiet _ rfl
    rename_i hst hperm
    rw [List.isPerm_iff] at hperm
    rw [sent_snoc, show sent [(Op.exhausted order, Out.ok)] = [] from rfl, List.append_nil]
    refine ⟨h.nodup, h.sub, by rintro ⟨⟩, ?_, h.always⟩
    rintro rest ⟨⟩ x
    have h1 := h.running hst x
    have h2 := List.nodup_iff_count.1 (hperm.nodup_iff.2 h.nodup) x
    by_cases hx : x ∈ order
    · have := h.sub x (hperm.mem_iff.1 hx)
      omega
    · rw [List.count_eq_zero.2 hx]
      omega
  | close bc =>
    simp only [step]
    rw [sent_snoc, show sent [(Op.close bc, Out.ok)] = [] from rfl, List.append_nil]
    exact ⟨h.nodup, h.sub, h.running, h.draining, h.always⟩
  | task i =>
    simp only [step]
    (repeat' split) <;> try exact quiet _ rfl
    rename_i hst _ y bc hi _
    rw [sent_snoc]
    have hc : ∀ x, actives (sent tr ++ [.ended y]) x = endeds (sent tr ++ [.ended y]) x +
        waiting (s.tasks.eraseIdx i) x := by
      intro x
      have h1 := h.running hst x
      have h2 := waiting_erase hi x
      rw [actives_snoc, endeds_snoc]
      simp only [Msg.ended.injEq, reduceCtorEq, if_false]
      omega
    refine ⟨h.nodup.filter _, ?_, fun _ => hc, ?_, ?_⟩
    · intro x hx
      rw [List.mem_filter] at hx
      have h1 := h.sub x hx.1
      have h2 := waiting_erase hi x
      have h3 : y ≠ x := by
        rintro rfl
        simp at hx
      rw [if_neg h3] at h2
      simp only []
      omega
    · intro rest hr
      simp only [] at hr
      rw [hst] at hr
      cases hr
    · intro x
      have := hc x
      show endeds (sent tr ++ [.ended y]) x ≤ actives (sent tr ++ [.ended y]) x
      omega
  | drain =>
    simp only [step]
    split
    · rename_i y rest hst
      rw [sent_snoc]
      have hc : ∀ x, endeds (sent tr ++ [.ended y]) x + rest.count x ≤
          actives (sent tr ++ [.ended y]) x := by
        intro x
        have h1 := h.draining _ hst x
        rw [List.count_cons] at h1
        rw [actives_snoc, endeds_snoc]
        simp only [Msg.ended.injEq, reduceCtorEq, if_false]
        by_cases hxy : y = x
        · simp [hxy] at h1 ⊢; omega
        · simp [hxy] at h1 ⊢; omega
      refine ⟨h.nodup, h.sub, by rintro ⟨⟩, ?_, ?_⟩
      · rintro r ⟨⟩ x
        exact hc x
      · intro x
        have := hc x
        show endeds (sent tr ++ [.ended y]) x ≤ actives (sent tr ++ [.ended y]) x
        omega
    · rw [sent_snoc, show sent [(Op.drain, Out.finished)] = [] from rfl, List.append_nil]
      exact ⟨h.nodup, h.sub, by rintro ⟨⟩, by rintro r ⟨⟩, h.always⟩
    · exact quiet _ rfl
  | stop =>
    simp only [step]
    (repeat' split) <;> first
      | exact quiet _ rfl
      | (rw [sent_snoc, show sent [(Op.stop, Out.ok)] = [] from rfl, List.append_nil]
         exact ⟨h.nodup, h.sub, by rintro ⟨⟩, by rintro r ⟨⟩, h.always⟩)

theorem weak_reach {tr : List (Op × Out)} {s : State} (h : machine.Reach tr s) : Weak (sent tr) s := by
  refine Machine.Reach.induct (M := machine) (P := fun tr s => Weak (sent tr) s) ?_ ?_ h
  · refine ⟨by simp [init], by simp [init], ?_, by rintro r ⟨⟩, ?_⟩ <;>
      simp [init, sent, actives, endeds, waiting]
  · intro tr s op _ ih
    exact weak_step ih op

theorem polite_init {tr : List (Op × Out)} {e : Op × Out} (h : Polite (tr ++ [e])) : Polite tr := by
  intro t₁ t₂ x bc ht
  exact h t₁ (t₂ ++ [e]) x bc (by rw [ht]; simp)

/-- What holds in addition if broadcasts are announced only under free suffixes. -/
structure Strong (l : List Msg) (s : State) : Prop where
  wf : WellFormed l
  running : s.stage = .running → ∀ x, waiting s.tasks x = if x ∈ s.active then 1 else 0
  draining : ∀ rest, s.stage = .draining rest → ∀ x,
    actives l x = endeds l x + rest.count x ∧ rest.count x ≤ 1
  finished : s.stage = .finished → Settled l

theorem strong_step {tr : List (Op × Out)} {s : State} (hw : Weak (sent tr) s)
    (h : Strong (sent tr) s) (op : Op) (hp : Polite (tr ++ [(op, (step s op).1)])) :
    Strong (sent (tr ++ [(op, (step s op).1)])) (step s op).2 := by
  have quiet : ∀ e : Op × Out, sent [e] = [] → Strong (sent (tr ++ [e])) s := by
    intro e he
    rw [sent_snoc, he, List.append_nil]
    exact h
  revert hp
  cases op with
  | announce y bc =>
    simp only [step]
    split
    · rename_i hst
      intro hp
      have hfree := hp tr [] y bc rfl
      have hy := hw.running hst y
      have hyt : waiting s.tasks y = 0 := by omega
      have hya : y ∉ s.active := by
        intro hm
        have := hw.sub y hm
        omega
      rw [sent_snoc, show sent [(Op.announce y bc, Out.sent (Msg.active y))] = [.active y] from rfl]
      refine ⟨wellFormed_snoc h.wf ?_, ?_, ?_, ?_⟩
      · intro x
        have h1 := h.wf _ List.prefix_rfl x
        rw [actives_snoc, endeds_snoc]
        simp only [Msg.active.injEq, reduceCtorEq, if_false]
        by_cases hxy : y = x
        · subst hxy; rw [if_pos rfl]; omega
        · rw [if_neg hxy]; omega
      · intro _ x
        have h1 := h.running hst x
        simp only []
        rw [waiting_append, waiting_one, h1, if_neg hya]
        by_cases hxy : y = x
        · subst hxy; simp [hya]
        · have : ¬ x = y := fun hx => hxy hx.symm
          simp [hxy, this]
      · intro rest hr; simp only [] at hr; rw [hst] at hr; cases hr
      · intro hr; simp only [] at hr; rw [hst] at hr; cases hr
    · intro _; exact quiet _ rfl
  | exhausted order =>
    simp only [step]
    (repeat' split) <;> intro _ <;> try exact quiet _ rfl
    rename_i hst hperm _
    rw [List.isPerm_iff] at hperm
    rw [sent_snoc, show sent [(Op.exhausted order, Out.ok)] = [] from rfl, List.append_nil]
    refine ⟨h.wf, by rintro ⟨⟩, ?_, by rintro ⟨⟩⟩
    rintro rest ⟨⟩ x
    have h1 := hw.running hst x
    have h2 := List.nodup_iff_count.1 (hperm.nodup_iff.2 hw.nodup) x
    have h3 := h.running hst x
    refine ⟨?_, h2⟩
    by_cases hx : x ∈ order
    · have h4 := List.count_pos_iff.2 hx
      rw [if_pos (hperm.mem_iff.1 hx)] at h3
      omega
    · rw [if_neg (fun hm => hx (hperm.mem_iff.2 hm))] at h3
      rw [List.count_eq_zero.2 hx]
      omega
  | close bc =>
    intro _
    simp only [step]
    rw [sent_snoc, show sent [(Op.close bc, Out.ok)] = [] from rfl, List.append_nil]
    exact ⟨h.wf, h.running, h.draining, h.finished⟩
  | task i =>
    simp only [step]
    (repeat' split) <;> intro _ <;> try exact quiet _ rfl
    rename_i hst _ y bc hi _ _
    rw [sent_snoc]
    have h2 := waiting_erase hi
    refine ⟨wellFormed_snoc h.wf ?_, ?_, ?_, ?_⟩
    · intro x
      have h1 := h.wf _ List.prefix_rfl x
      have h3 := hw.running hst x
      have h2 := h2 x
      rw [actives_snoc, endeds_snoc]
      simp only [Msg.ended.injEq, reduceCtorEq, if_false]
      by_cases hxy : y = x
      · rw [if_pos hxy] at h2 ⊢; omega
      · rw [if_neg hxy]; omega
    · intro _ x
      have h1 := h.running hst x
      have h2 := h2 x
      simp only [List.mem_filter]
      by_cases hxy : y = x
      · subst hxy
        rw [if_pos rfl] at h2
        simp only [bne_self_eq_false, Bool.false_eq_true, and_false, if_false]
        split at h1
        · omega
        · omega
      · have h3 : (x != y) = true := by simpa using fun hx => hxy hx.symm
        rw [if_neg hxy, Nat.add_zero] at h2
        rw [← h2, h1]
        simp [h3]
    · intro rest hr; simp only [] at hr; rw [hst] at hr; cases hr
    · intro hr; simp only [] at hr; rw [hst] at hr; cases hr
  | drain =>
    simp only [step]
    split <;> intro _
    · rename_i y rest hst _
      rw [sent_snoc, show sent [(Op.drain, Out.sent (Msg.ended y))] = [.ended y] from rfl]
      have hc : ∀ x, actives (sent tr ++ [.ended y]) x =
          endeds (sent tr ++ [.ended y]) x + rest.count x ∧ rest.count x ≤ 1 := by
        intro x
        have h1 := h.draining _ hst x
        rw [List.count_cons] at h1
        rw [actives_snoc, endeds_snoc]
        simp only [Msg.ended.injEq, reduceCtorEq, if_false]
        by_cases hxy : y = x
        · simp [hxy] at h1 ⊢; omega
        · simp [hxy] at h1 ⊢; omega
      refine ⟨wellFormed_snoc h.wf ?_, by rintro ⟨⟩, ?_, by rintro ⟨⟩⟩
      · intro x
        have := hc x
        omega
      · rintro r ⟨⟩ x
        exact hc x
    · rename_i hst _
      rw [sent_snoc, show sent [(Op.drain, Out.finished)] = [] from rfl, List.append_nil]
      refine ⟨h.wf, by rintro ⟨⟩, by rintro r ⟨⟩, ?_⟩
      intro _ x
      have := (h.draining [] hst x).1
      simpa using this
    · exact quiet _ rfl
  | stop =>
    simp only [step]
    (repeat' split) <;> intro _ <;> first
      | exact quiet _ rfl
      | (rw [sent_snoc, show sent [(Op.stop, Out.ok)] = [] from rfl, List.append_nil]
         exact ⟨h.wf, by rintro ⟨⟩, by rintro r ⟨⟩, by rintro ⟨⟩⟩)

theorem strong_reach {tr : List (Op × Out)} {s : State} (h : machine.Reach tr s)
    (hp : Polite tr) : Strong (sent tr) s := by
  revert hp
  refine Machine.Reach.induct (M := machine) (P := fun tr s => Polite tr → Strong (sent tr) s) ?_ ?_ h
  · intro _
    exact ⟨wellFormed_nil, fun _ x => by simp [init, waiting], by rintro r ⟨⟩, by rintro ⟨⟩⟩
  · intro tr s op hreach ih hp
    exact strong_step (weak_reach hreach) (ih (polite_init hp)) op hp

theorem finished_stage {tr : List (Op × Out)} {s : State} (h : machine.Reach tr s)
    (hf : (Op.drain, Out.finished) ∈ tr) : s.stage = .finished := by
  revert hf
  refine Machine.Reach.induct (M := machine)
    (P := fun tr s => (Op.drain, Out.finished) ∈ tr → s.stage = .finished) ?_ ?_ h
  · intro hf; cases hf
  · intro tr s op _ ih hf
    rw [List.mem_append, List.mem_singleton] at hf
    rcases hf with hf | hf
    · have := ih hf
      cases op <;> simp only [machine, step, this]
    · injection hf with h1 h2
      subst h1
      revert h2
      simp only [machine, step]
      split <;> intro h2 <;> first | rfl | cases h2

end Sender

/-! ## The receiver -/

namespace Receiver

open Verif.Model.Origin (get insert remove get_remove_self get_remove_ne get_insert_self get_insert_ne)

theorem accepted_snoc (tr : List (Op × Out)) (e : Op × Out) :
    accepted (tr ++ [e]) = accepted tr ++ accepted [e] := by simp [accepted]

theorem removals_snoc (tr : List (Op × Out)) (e : Op × Out) (x : Path) :
    removals (tr ++ [e]) x = removals tr x + if e.2 = .removed x then 1 else 0 := by
  unfold removals
  rw [List.countP_append, List.countP_singleton]
  simp

/-- Whether the origin has a closed broadcast at a suffix. -/
def dead (s : State) (x : Path) : Nat :=
  match get s.active x with
  | some b => if b ∈ s.closed then 1 else 0
  | none => 0

/-- The origin and the tasks that clean it up. -/
structure Mirror (tr : List (Op × Out)) (s : State) : Prop where
  /-- there is one task for every entry of the origin -/
  tasks : ∀ x b, get s.active x = some b ↔ (x, b) ∈ s.tasks
  nodup : (s.tasks.map (·.1)).Nodup
  nodup' : (s.tasks.map (·.2)).Nodup
  fresh : ∀ e ∈ s.tasks, e.2 < s.fresh
  closed : ∀ b ∈ s.closed, b < s.fresh
  producers : ∀ x b, get s.producers x = some b ↔ get s.active x = some b ∧ b ∉ s.closed
  balance : ∀ x, actives (accepted tr) x =
    endeds (accepted tr) x + if get s.producers x = none then 0 else 1
  gone : ∀ x, endeds (accepted tr) x = removals tr x + dead s x

theorem fst_inj {ts : List (Path × Nat)} (h : (ts.map (·.1)).Nodup) {x : Path} {a b : Nat}
    (ha : (x, a) ∈ ts) (hb : (x, b) ∈ ts) : a = b := by
  have := List.inj_on_of_nodup_map h ha hb rfl
  injection this

theorem snd_inj {ts : List (Path × Nat)} (h : (ts.map (·.2)).Nodup) {x y : Path} {a : Nat}
    (ha : (x, a) ∈ ts) (hb : (y, a) ∈ ts) : x = y := by
  have := List.inj_on_of_nodup_map h ha hb rfl
  injection this

theorem Mirror.quiet {tr : List (Op × Out)} {s s' : State} (h : Mirror tr s) (e : Op × Out)
    (ha : accepted [e] = []) (hr : ∀ x, e.2 ≠ .removed x) (h1 : s'.active = s.active)
    (h2 : s'.tasks = s.tasks) (h3 : s'.closed = s.closed) (h4 : s'.fresh = s.fresh)
    (h5 : s'.producers = s.producers) : Mirror (tr ++ [e]) s' := by
  obtain ⟨p, a, t, c, f, r⟩ := s
  obtain ⟨p', a', t', c', f', r'⟩ := s'
  simp only at h1 h2 h3 h4 h5
  subst h1 h2 h3 h4 h5
  refine ⟨h.tasks, h.nodup, h.nodup', h.fresh, h.closed, h.producers, ?_, ?_⟩
  · intro x
    rw [accepted_snoc, ha, List.append_nil]
    exact h.balance x
  · intro x
    rw [accepted_snoc, ha, List.append_nil, removals_snoc, if_neg (hr x)]
    exact h.gone x

theorem Mirror.active {tr : List (Op × Out)} {s : State} (h : Mirror tr s) {x₀ : Path}
    (hx : get s.active x₀ = none) {s' : State} (h1 : s'.active = insert s.active x₀ s.fresh)
    (h2 : s'.tasks = s.tasks ++ [(x₀, s.fresh)]) (h3 : s'.closed = s.closed)
    (h4 : s'.fresh = s.fresh + 1) (h5 : s'.producers = insert s.producers x₀ s.fresh) :
    Mirror (tr ++ [(.msg (.active x₀), .ok)]) s' := by
  have hp : get s.producers x₀ = none := by
    cases hg : get s.producers x₀ with
    | none => rfl
    | some b => rw [((h.producers _ _).1 hg).1] at hx; cases hx
  have hnew : s.fresh ∉ s.closed := fun hc => Nat.lt_irrefl _ (h.closed _ hc)
  refine ⟨?_, ?_, ?_, ?_, ?_, ?_, ?_, ?_⟩
  · intro x b
    rw [h1, h2, List.mem_append, List.mem_singleton]
    by_cases hxx : x = x₀
    · subst hxx
      rw [get_insert_self, ← h.tasks, hx]
      simp [eq_comm]
    · rw [get_insert_ne _ _ hxx, ← h.tasks]
      simp [hxx]
  · rw [h2, List.map_append, List.nodup_append]
    refine ⟨h.nodup, by simp, ?_⟩
    rintro a ha b hb rfl
    simp only [List.map_cons, List.map_nil, List.mem_singleton] at hb
    subst hb
    rw [List.mem_map] at ha
    obtain ⟨⟨y, c⟩, he, rfl⟩ := ha
    rw [← h.tasks] at he
    rw [he] at hx
    cases hx
  · rw [h2, List.map_append, List.nodup_append]
    refine ⟨h.nodup', by simp, ?_⟩
    rintro a ha b hb rfl
    simp only [List.map_cons, List.map_nil, List.mem_singleton] at hb
    subst hb
    rw [List.mem_map] at ha
    obtain ⟨e, he, hef⟩ := ha
    have := h.fresh e he
    omega
  · intro e he
    rw [h2, List.mem_append, List.mem_singleton] at he
    rw [h4]
    rcases he with he | rfl
    · exact Nat.lt_succ_of_lt (h.fresh e he)
    · exact Nat.lt_succ_self _
  · intro b hb
    rw [h3] at hb
    rw [h4]
    exact Nat.lt_succ_of_lt (h.closed b hb)
  · intro x b
    rw [h1, h3, h5]
    by_cases hxx : x = x₀
    · subst hxx
      rw [get_insert_self, get_insert_self]
      constructor
      · intro hb
        injection hb with hb
        subst hb
        exact ⟨rfl, hnew⟩
      · exact fun hb => hb.1
    · rw [get_insert_ne _ _ hxx, get_insert_ne _ _ hxx]
      exact h.producers x b
  · intro x
    have := h.balance x
    rw [accepted_snoc, show accepted [(Op.msg (Msg.active x₀), Out.ok)] = [.active x₀] from rfl,
      actives_snoc, endeds_snoc, h5]
    simp only [Msg.active.injEq, reduceCtorEq, if_false]
    by_cases hxx : x₀ = x
    · subst hxx
      rw [if_pos hp] at this
      rw [get_insert_self, if_pos rfl, if_neg (by simp)]
      omega
    · rw [get_insert_ne _ _ (fun hh => hxx hh.symm), if_neg hxx]
      omega
  · intro x
    have := h.gone x
    rw [accepted_snoc, show accepted [(Op.msg (Msg.active x₀), Out.ok)] = [.active x₀] from rfl,
      endeds_snoc, removals_snoc]
    simp only [reduceCtorEq, if_false, Nat.add_zero]
    rw [this]
    congr 1
    unfold dead
    rw [h1, h3]
    by_cases hxx : x = x₀
    · subst hxx
      rw [get_insert_self, hx]
      simp [hnew]
    · rw [get_insert_ne _ _ hxx]

theorem Mirror.ended {tr : List (Op × Out)} {s : State} (h : Mirror tr s) {x₀ : Path} {bc : Nat}
    (hx : get s.producers x₀ = some bc) {s' : State} (h1 : s'.active = s.active)
    (h2 : s'.tasks = s.tasks) (h3 : s'.closed = bc :: s.closed)
    (h4 : s'.fresh = s.fresh) (h5 : s'.producers = remove s.producers x₀) :
    Mirror (tr ++ [(.msg (.ended x₀), .ok)]) s' := by
  obtain ⟨ha, hc⟩ := (h.producers _ _).1 hx
  have ht := (h.tasks _ _).1 ha
  have hne : ∀ x, x ≠ x₀ → get s.active x ≠ some bc := by
    intro x hxx hg
    exact hxx (snd_inj h.nodup' ((h.tasks _ _).1 hg) ht)
  refine ⟨by rw [h1, h2]; exact h.tasks, by rw [h2]; exact h.nodup, by rw [h2]; exact h.nodup',
    by rw [h2, h4]; exact h.fresh, ?_, ?_, ?_, ?_⟩
  · intro b hb
    rw [h3, List.mem_cons] at hb
    rw [h4]
    rcases hb with rfl | hb
    · exact h.fresh _ ht
    · exact h.closed b hb
  · intro x b
    rw [h1, h3, h5, List.mem_cons, not_or]
    by_cases hxx : x = x₀
    · subst hxx
      rw [get_remove_self, ha]
      constructor
      · intro hh; cases hh
      · rintro ⟨hb, hb', _⟩
        injection hb with hb
        exact absurd hb.symm hb'
    · rw [get_remove_ne _ hxx, h.producers]
      constructor
      · rintro ⟨p, q⟩
        refine ⟨p, ?_, q⟩
        rintro rfl
        exact hne x hxx p
      · rintro ⟨p, _, q⟩
        exact ⟨p, q⟩
  · intro x
    have := h.balance x
    rw [accepted_snoc, show accepted [(Op.msg (Msg.ended x₀), Out.ok)] = [.ended x₀] from rfl,
      actives_snoc, endeds_snoc, h5]
    simp only [Msg.ended.injEq, reduceCtorEq, if_false]
    by_cases hxx : x₀ = x
    · subst hxx
      rw [if_neg (by rw [hx]; simp)] at this
      rw [get_remove_self, if_pos rfl, if_pos rfl]
      omega
    · rw [get_remove_ne _ (fun hh => hxx hh.symm), if_neg hxx]
      omega
  · intro x
    have := h.gone x
    rw [accepted_snoc, show accepted [(Op.msg (Msg.ended x₀), Out.ok)] = [.ended x₀] from rfl,
      endeds_snoc, removals_snoc]
    simp only [Msg.ended.injEq, reduceCtorEq, if_false, Nat.add_zero]
    rw [this]
    unfold dead
    rw [h1, h3]
    by_cases hxx : x₀ = x
    · subst hxx
      rw [ha]
      simp [hc]
    · rw [if_neg hxx]
      cases hg : get s.active x with
      | none => rfl
      | some b =>
        have hb : b ≠ bc := by
          rintro rfl
          exact hne x (fun hh => hxx hh.symm) hg
        simp [hb]

theorem Mirror.task {tr : List (Op × Out)} {s : State} (h : Mirror tr s) {i : Nat} {x₀ : Path}
    {bc : Nat} (hi : s.tasks[i]? = some (x₀, bc)) (hc : bc ∈ s.closed) {s' : State}
    (h1 : s'.active = remove s.active x₀) (h2 : s'.tasks = s.tasks.eraseIdx i)
    (h3 : s'.closed = s.closed) (h4 : s'.fresh = s.fresh) (h5 : s'.producers = s.producers) :
    Mirror (tr ++ [(.task i, .removed x₀)]) s' := by
  have ht := List.mem_of_getElem? hi
  have ha := (h.tasks _ _).2 ht
  have hp : get s.producers x₀ = none := by
    cases hg : get s.producers x₀ with
    | none => rfl
    | some b =>
      obtain ⟨p, q⟩ := (h.producers _ _).1 hg
      rw [ha] at p
      injection p with p
      subst p
      exact absurd hc q
  have hnd : s.tasks.Nodup := List.Nodup.of_map _ h.nodup
  have hmem : ∀ e, e ∈ s.tasks.eraseIdx i ↔ e ∈ s.tasks ∧ e ≠ (x₀, bc) := by
    intro e
    have hlt := (List.getElem?_eq_some_iff.1 hi)
    obtain ⟨hlt, hget⟩ := hlt
    rw [← List.Nodup.erase_getElem hnd i hlt, hget, List.Nodup.mem_erase_iff hnd, and_comm]
  refine ⟨?_, ?_, ?_, ?_, by rw [h3, h4]; exact h.closed, ?_, ?_, ?_⟩
  · intro x b
    rw [h1, h2, hmem]
    by_cases hxx : x = x₀
    · subst hxx
      rw [get_remove_self, ← h.tasks, ha]
      constructor
      · intro hh; cases hh
      · rintro ⟨p, q⟩
        injection p with p
        subst p
        exact absurd rfl q
    · rw [get_remove_ne _ hxx, ← h.tasks]
      simp [hxx]
  · rw [h2]
    exact h.nodup.sublist ((List.eraseIdx_sublist _ _).map _)
  · rw [h2]
    exact h.nodup'.sublist ((List.eraseIdx_sublist _ _).map _)
  · intro e he
    rw [h2, hmem] at he
    rw [h4]
    exact h.fresh e he.1
  · intro x b
    rw [h1, h3, h5]
    by_cases hxx : x = x₀
    · subst hxx
      rw [get_remove_self, hp]
      simp
    · rw [get_remove_ne _ hxx]
      exact h.producers x b
  · intro x
    rw [accepted_snoc, show accepted [(Op.task i, Out.removed x₀)] = [] from rfl, List.append_nil, h5]
    exact h.balance x
  · intro x
    have := h.gone x
    rw [accepted_snoc, show accepted [(Op.task i, Out.removed x₀)] = [] from rfl, List.append_nil,
      removals_snoc, this]
    unfold dead
    rw [h1, h3]
    simp only [Out.removed.injEq]
    by_cases hxx : x₀ = x
    · subst hxx
      rw [get_remove_self, ha]
      simp [hc]
    · rw [get_remove_ne _ (fun hh => hxx hh.symm), if_neg hxx]
      omega

theorem failed_snoc {tr : List (Op × Out)} {e : Op × Out} (h : ¬ Failed (tr ++ [e])) :
    ¬ Failed tr := by
  rintro ⟨m, x, hm⟩
  exact h ⟨m, x, List.mem_append_left _ hm⟩

theorem mirror_reach {tr : List (Op × Out)} {s : State} (h : machine.Reach tr s)
    (hf : ¬ Failed tr) : Mirror tr s := by
  revert hf
  refine Machine.Reach.induct (M := machine) (P := fun tr s => ¬ Failed tr → Mirror tr s) ?_ ?_ h
  · intro _
    refine ⟨?_, by simp [init], by simp [init], by simp [init], by simp [init], ?_, ?_, ?_⟩ <;>
      simp [init, Model.Origin.get, accepted, actives, endeds, removals, dead]
  · intro tr s op _ ih hf
    have ih := ih (failed_snoc hf)
    revert hf
    cases op with
    | msg m =>
      cases m with
      | active x =>
        simp only [machine, step]
        (repeat' split) <;> intro hf
        · exact ih.quiet _ rfl (by intro x; simp) rfl rfl rfl rfl rfl
        · exact ih.active (by assumption) rfl rfl rfl rfl rfl
        · exact absurd ⟨_, _, List.mem_append_right _ (List.mem_singleton.2 rfl)⟩ hf
      | ended x =>
        simp only [machine, step]
        (repeat' split) <;> intro hf
        · exact ih.quiet _ rfl (by intro x; simp) rfl rfl rfl rfl rfl
        · exact absurd ⟨_, _, List.mem_append_right _ (List.mem_singleton.2 rfl)⟩ hf
        · exact ih.ended (by assumption) rfl rfl rfl rfl rfl
    | fin =>
      simp only [machine, step]
      split <;> intro _ <;> exact ih.quiet _ rfl (by intro x; simp) rfl rfl rfl rfl rfl
    | task i =>
      simp only [machine, step]
      (repeat' split) <;> intro _
      · exact ih.quiet _ rfl (by intro x; simp) rfl rfl rfl rfl rfl
      · exact ih.task (by assumption) (by assumption) rfl rfl rfl rfl rfl
      · exact ih.quiet _ rfl (by intro x; simp) rfl rfl rfl rfl rfl

theorem result_reach {tr : List (Op × Out)} {s : State} (h : machine.Reach tr s) :
    s.result = none ↔ ¬ Failed tr ∧ ¬ Over tr := by
  refine Machine.Reach.induct (M := machine)
    (P := fun tr s => s.result = none ↔ ¬ Failed tr ∧ ¬ Over tr) ?_ ?_ h
  · simp [init, Failed, Over]
  · intro tr s op _ ih
    have key : ∀ (e : Op × Out) (r : Option (Except Error Unit)),
        ((r = none) ↔ s.result = none ∧ (∀ m x, e ≠ (Op.msg m, Out.err x)) ∧ e ≠ (Op.fin, Out.ok)) →
        (r = none ↔ ¬ Failed (tr ++ [e]) ∧ ¬ Over (tr ++ [e])) := by
      intro e r hr
      rw [hr, ih]
      unfold Failed Over
      simp only [List.mem_append, List.mem_singleton]
      constructor
      · rintro ⟨⟨a, b⟩, c, d⟩
        refine ⟨?_, ?_⟩
        · rintro ⟨m, x, hm | hm⟩
          · exact a ⟨m, x, hm⟩
          · exact c m x hm.symm
        · rintro (hm | hm)
          · exact b hm
          · exact d hm.symm
      · rintro ⟨a, b⟩
        refine ⟨⟨?_, ?_⟩, ?_, ?_⟩
        · rintro ⟨m, x, hm⟩
          exact a ⟨m, x, .inl hm⟩
        · exact fun hm => b (.inl hm)
        · exact fun m x hm => a ⟨m, x, .inr hm.symm⟩
        · exact fun hm => b (.inr hm.symm)
    apply key
    cases op with
    | msg m => cases m <;> simp only [machine, step] <;> (repeat' split) <;> simp_all
    | fin => simp only [machine, step]; (repeat' split) <;> simp_all
    | task i => simp only [machine, step]; (repeat' split) <;> simp_all

end Receiver

/-! ## What the sender watches -/

/-- Tasks and history: `gone` are those that have completed. -/
structure Watched (tr : List (Sender.Op × Sender.Out)) (s : Sender.State)
    (gone : List (Path × Nat)) : Prop where
  closed : ∀ bc, bc ∈ s.closed ↔ IsClosed tr bc
  left : s.stage = .running ↔ ¬ Left tr
  perm : (announces tr).Perm (s.tasks ++ gone)
  ended : ∀ e ∈ gone, e.2 ∈ s.closed
  count : s.stage = .running → ∀ x, gone.countP (fun e => e.1 = x) = endeds (sent tr) x

theorem left_snoc (tr : List (Sender.Op × Sender.Out)) (op : Sender.Op) (o : Sender.Out) :
    Left (tr ++ [(op, o)]) ↔
      Left tr ∨ (((∃ order, op = .exhausted order) ∨ op = .stop) ∧ o = .ok) := by
  unfold Left
  constructor
  · rintro ⟨op', h1, h2⟩
    rcases List.mem_append.1 h2 with h2 | h2
    · exact .inl ⟨op', h1, h2⟩
    · rw [List.mem_singleton] at h2
      cases h2
      exact .inr ⟨h1, rfl⟩
  · rintro (⟨op', h1, h2⟩ | ⟨h1, rfl⟩)
    · exact ⟨op', h1, List.mem_append_left _ h2⟩
    · exact ⟨op, h1, by simp⟩

/-- A step that changes nothing that matters. -/
theorem Watched.same {tr : List (Sender.Op × Sender.Out)} {s s' : Sender.State}
    {gone : List (Path × Nat)} {op : Sender.Op} {o : Sender.Out} (h : Watched tr s gone)
    (h1 : s'.closed = s.closed) (h2 : s'.tasks = s.tasks)
    (h3 : s'.stage = .running ↔ ¬ Left (tr ++ [(op, o)]))
    (h4 : s'.stage = .running → s.stage = .running)
    (h5 : ∀ bc, (op, o) ≠ (.close bc, .ok)) (h6 : announces [(op, o)] = [])
    (h7 : s'.stage = .running → sent [(op, o)] = []) : Watched (tr ++ [(op, o)]) s' gone := by
  refine ⟨?_, h3, ?_, ?_, ?_⟩
  · intro bc
    rw [h1, h.closed]
    unfold IsClosed
    simp only [List.mem_append, List.mem_singleton]
    constructor
    · exact .inl
    · rintro (h | h)
      · exact h
      · exact absurd h.symm (h5 bc)
  · unfold announces at h6 ⊢
    rw [List.filterMap_append, h6, List.append_nil, h2]
    exact h.perm
  · rw [h1]; exact h.ended
  · intro hr x
    rw [Sender.sent_snoc, h7 hr, List.append_nil]
    exact h.count (h4 hr) x

theorem perm_erase {ts : List (Path × Nat)} {i : Nat} {e : Path × Nat} (h : ts[i]? = some e) :
    ts.Perm (e :: ts.eraseIdx i) := by
  induction ts generalizing i with
  | nil => simp at h
  | cons a ts ih =>
    cases i with
    | zero => simp at h; subst h; exact .refl _
    | succ i =>
      rw [List.getElem?_cons_succ] at h
      exact ((ih h).cons a).trans (.swap _ _ _)

theorem Watched.step {tr : List (Sender.Op × Sender.Out)} {s : Sender.State}
    {gone : List (Path × Nat)} (h : Watched tr s gone) (op : Sender.Op) :
    ∃ gone', Watched (tr ++ [(op, (Sender.step s op).1)]) (Sender.step s op).2 gone' := by
  have hleft := h.left
  cases op with
  | announce suffix bc =>
    simp only [Sender.step]
    split
    · rename_i hs
      refine ⟨gone, ?_, ?_, ?_, h.ended, ?_⟩
      · intro b
        show b ∈ s.closed ↔ _
        rw [h.closed]; unfold IsClosed; simp
      · rw [left_snoc]; simpa using hleft
      · unfold announces
        rw [List.filterMap_append]
        show (announces tr ++ [(suffix, bc)]).Perm (s.tasks ++ [(suffix, bc)] ++ gone)
        rw [List.append_assoc]
        exact ((h.perm.append_right _).trans (by
          rw [List.append_assoc]
          exact (List.perm_append_comm).append_left _))
      · intro _ x
        rw [Sender.sent_snoc, show sent [(Sender.Op.announce suffix bc,
          Sender.Out.sent (.active suffix))] = [.active suffix] from rfl, endeds_snoc]
        simpa using h.count hs x
    · exact ⟨gone, h.same rfl rfl (by rw [left_snoc]; simpa using hleft) id (by simp)
        rfl (fun _ => rfl)⟩
  | exhausted order =>
    simp only [Sender.step]
    split
    · split
      · exact ⟨gone, h.same rfl rfl (by rw [left_snoc]; simp) (by simp) (by simp) rfl
          (fun _ => rfl)⟩
      · exact ⟨gone, h.same rfl rfl (by rw [left_snoc]; simpa using hleft) id (by simp) rfl
          (fun _ => rfl)⟩
    · exact ⟨gone, h.same rfl rfl (by rw [left_snoc]; simpa using hleft) id (by simp) rfl
        (fun _ => rfl)⟩
  | close bc =>
    simp only [Sender.step]
    refine ⟨gone, ?_, ?_, ?_, ?_, ?_⟩
    · intro b
      simp only [List.mem_cons, h.closed]
      unfold IsClosed
      simp only [List.mem_append, List.mem_singleton, Prod.mk.injEq, Sender.Op.close.injEq, and_true]
      exact Or.comm
    · rw [left_snoc]; simpa using hleft
    · unfold announces
      rw [List.filterMap_append]
      show (announces tr ++ []).Perm _
      rw [List.append_nil]
      exact h.perm
    · exact fun e he => List.mem_cons_of_mem _ (h.ended e he)
    · intro hr x
      rw [Sender.sent_snoc]
      show _ = endeds (sent tr ++ []) x
      rw [List.append_nil]
      exact h.count hr x
  | task i =>
    simp only [Sender.step]
    split
    · rename_i hs
      split
      · exact ⟨gone, h.same rfl rfl (by rw [left_snoc]; simpa using hleft) id (by simp) rfl
          (fun _ => rfl)⟩
      · rename_i suffix bc ht
        split
        · rename_i hc
          refine ⟨(suffix, bc) :: gone, ?_, ?_, ?_, ?_, ?_⟩
          · intro b
            show b ∈ s.closed ↔ _
            rw [h.closed]; unfold IsClosed; simp
          · rw [left_snoc]; simpa using hleft
          · unfold announces
            rw [List.filterMap_append]
            show (announces tr ++ []).Perm (s.tasks.eraseIdx i ++ (suffix, bc) :: gone)
            rw [List.append_nil]
            refine h.perm.trans (((perm_erase ht).append_right gone).trans ?_)
            exact List.perm_middle.symm
          · intro e he
            rcases List.mem_cons.1 he with rfl | he
            · exact hc
            · exact h.ended e he
          · intro _ x
            rw [Sender.sent_snoc, show sent [(Sender.Op.task i,
              Sender.Out.sent (.ended suffix))] = [.ended suffix] from rfl, endeds_snoc,
              List.countP_cons, h.count hs x]
            simp
        · exact ⟨gone, h.same rfl rfl (by rw [left_snoc]; simpa using hleft) id (by simp) rfl
            (fun _ => rfl)⟩
    · exact ⟨gone, h.same rfl rfl (by rw [left_snoc]; simpa using hleft) id (by simp) rfl
        (fun _ => rfl)⟩
  | drain =>
    simp only [Sender.step]
    split
    · rename_i hs
      rw [hs] at hleft
      exact ⟨gone, h.same rfl rfl (by rw [left_snoc]; simpa using hleft) (by simp) (by simp)
        rfl (by simp)⟩
    · rename_i hs
      rw [hs] at hleft
      exact ⟨gone, h.same rfl rfl (by rw [left_snoc]; simpa using hleft) (by simp) (by simp)
        rfl (by simp)⟩
    · exact ⟨gone, h.same rfl rfl (by rw [left_snoc]; simpa using hleft) id (by simp)
        rfl (fun _ => rfl)⟩
  | stop =>
    simp only [Sender.step]
    split
    · exact ⟨gone, h.same rfl rfl (by rw [left_snoc]; simp) (by simp) (by simp)
        rfl (fun _ => rfl)⟩
    · exact ⟨gone, h.same rfl rfl (by rw [left_snoc]; simp) (by simp) (by simp)
        rfl (fun _ => rfl)⟩
    · exact ⟨gone, h.same rfl rfl (by rw [left_snoc]; simpa using hleft) id (by simp)
        rfl (fun _ => rfl)⟩

theorem watched_reach {tr : List (Sender.Op × Sender.Out)} {s : Sender.State}
    (h : Sender.machine.Reach tr s) : ∃ gone, Watched tr s gone := by
  refine Machine.Reach.induct (M := Sender.machine) (P := fun tr s => ∃ gone, Watched tr s gone)
    ?_ ?_ h
  · exact ⟨[], by simp [IsClosed, Sender.machine, Sender.init], by simp [Left, Sender.machine,
      Sender.init], .refl _, by simp, fun _ _ => rfl⟩
  · rintro tr s op _ ⟨gone, ih⟩
    exact ih.step op

end Verif.Session.Announce
