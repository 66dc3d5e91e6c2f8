import Verif.Js.CatalogTrack
import Verif.Js.CaptureLemmas

/-!
# Invariants of the catalog track
-/

set_option autoImplicit false

namespace Verif.Js.CatalogTrack

open Verif Verif.Js

/-- The track has one group for each of these catalogs. -/
structure Inv (enc : Parts → Bytes) (cs : List Parts) (s : State) : Prop where
  reach : Track.machine.Reach s.calls s.track
  live : s.track.status = .live
  next : s.track.next = cs.length
  acc : Track.accepted s.calls = List.range cs.length
  content : ∀ i : Nat, Track.content s.calls i = ((cs[i]?).map enc).toList
  ended : ∀ g < cs.length, (.closeGroup g, .ok) ∈ s.calls
  ending : Track.ending s.calls = none

theorem Inv.frame {enc : Parts → Bytes} {cs : List Parts} {s s' : State} (i : Inv enc cs s) (h1 : s'.track = s.track)
    (h2 : s'.calls = s.calls) : Inv enc cs s' := by
  obtain ⟨e, p, c, t, l⟩ := s
  obtain ⟨e', p', c', t', l'⟩ := s'
  dsimp only at h1 h2
  subst h1 h2
  exact ⟨i.reach, i.live, i.next, i.acc, i.content, i.ended, i.ending⟩

theorem init_inv (enc : Parts → Bytes) : Inv enc [] init :=
  ⟨.init, rfl, rfl, rfl, fun _ => rfl, fun _ h => absurd h (by simp), rfl⟩

theorem Inv.reader {enc : Parts → Bytes} {cs : List Parts} {s : State} (i : Inv enc cs s) (op : Track.Op)
    (h : Receive.reads op = true) : Inv enc cs (call s op) := by
  obtain ⟨-, h2, h3, -⟩ := Receive.reads_keeps h s.track
  refine ⟨Machine.Reach.step (M := Track.machine) op i.reach, h2.trans i.live, h3.trans i.next, ?_, ?_, ?_, ?_⟩
  · unfold call
    rw [Track.accepted_snoc, i.acc]
    cases op <;> first | exact absurd h Bool.false_ne_true | simp [Track.taken]
  · intro k
    unfold call
    rw [Track.content_snoc, i.content]
    cases op <;> first | exact absurd h Bool.false_ne_true | simp [Track.addition]
  · intro g hg
    exact List.mem_append_left _ (i.ended g hg)
  · unfold call
    rw [Track.ending_snoc, i.ending]
    cases op <;> first | exact absurd h Bool.false_ne_true | simp

theorem find_new {l : List Track.Grp} {n : Nat} (h : ∀ x ∈ l, x.id ≠ n) (fs : List Bytes) (st : Js.Group.Status) :
    (l ++ [(⟨n, fs, st⟩ : Track.Grp)]).find? (fun g => g.id = n) = some ⟨n, fs, st⟩ := by
  have hn : l.find? (fun g => g.id = n) = none := by
    rw [List.find?_eq_none]
    intro x hx
    simpa using h x hx
  rw [List.find?_append, hn]
  simp

theorem run_inv {enc : Parts → Bytes} {cs : List Parts} {s : State} (i : Inv enc cs s) :
    (run enc s).1 = .wrote ∧ Inv enc (cs ++ [s.parts]) (run enc s).2 ∧
    (run enc s).2.enabled = s.enabled ∧ (run enc s).2.parts = s.parts ∧ (run enc s).2.closed = s.closed := by
  have hids : ∀ x ∈ s.track.groups, x.id ≠ cs.length := by
    intro x hx he
    have hi := (Track.inv_reach i.reach).track
    have hm : x.id ∈ Track.ids s.track := List.mem_map_of_mem hx
    rw [hi.ids, i.acc, he] at hm
    simp at hm
  have hstep : (Track.step s.track .append).1 = .group cs.length := by
    rw [Track.step, Track.add, if_pos i.live, i.next]
  let a := call s .append
  have ag : a.track.groups = s.track.groups ++ [⟨cs.length, [], .live⟩] := by
    show (Track.step s.track .append).2.groups = _
    rw [Track.step, Track.add, if_pos i.live, i.next]
  have an : a.track.next = cs.length + 1 ∧ a.track.status = .live := by
    show (Track.step s.track .append).2.next = _ ∧ (Track.step s.track .append).2.status = _
    rw [Track.step, Track.add, if_pos i.live, i.next]
    exact ⟨rfl, i.live⟩
  have af : Track.find a.track cs.length = some ⟨cs.length, [], .live⟩ := by
    unfold Track.find
    rw [ag]
    exact find_new hids _ _
  obtain ⟨w1, w2⟩ := Receive.group_step af rfl (fun x => { x with frames := x.frames ++ [enc s.parts] }) fun _ => rfl
  have w1' : (Track.step a.track (.write cs.length (enc s.parts))).1 = .ok := w1
  let b := call a (.write cs.length (enc s.parts))
  have bf : Track.find b.track cs.length = some ⟨cs.length, [enc s.parts], .live⟩ := w2.this
  obtain ⟨c1, c2⟩ := Receive.group_step bf rfl (fun x => { x with status := .closed }) fun _ => rfl
  have c1' : (Track.step b.track (.closeGroup cs.length)).1 = .ok := c1
  have e : run enc s = (.wrote, call b (.closeGroup cs.length)) := by
    unfold run
    rw [hstep]
    dsimp only
    rw [show (Track.step (call s .append).track (.write cs.length (enc s.parts))).1 = .ok from w1']
  have calls : (call b (.closeGroup cs.length)).calls = s.calls ++ [(.append, .group cs.length)] ++
      [(.write cs.length (enc s.parts), .ok)] ++ [(.closeGroup cs.length, .ok)] := by
    show ((s.calls ++ [(.append, (Track.step s.track .append).1)]) ++
      [(.write cs.length (enc s.parts), (Track.step a.track (.write cs.length (enc s.parts))).1)]) ++
      [(.closeGroup cs.length, (Track.step b.track (.closeGroup cs.length)).1)] = _
    rw [hstep, w1', c1']
  have bn : b.track.next = cs.length + 1 ∧ b.track.status = .live := by
    have := Frames.onGroup_same a.track cs.length fun x => { x with frames := x.frames ++ [enc s.parts] }
    exact ⟨this.1.trans an.1, this.2.trans an.2⟩
  have cn := Frames.onGroup_same b.track cs.length fun x => { x with status := .closed }
  rw [e]
  refine ⟨rfl, ⟨?_, ?_, ?_, ?_, ?_, ?_, ?_⟩, rfl, rfl, rfl⟩
  · exact Machine.Reach.step (M := Track.machine) (.closeGroup cs.length)
      (Machine.Reach.step (M := Track.machine) (.write cs.length (enc s.parts))
        (Machine.Reach.step (M := Track.machine) .append i.reach))
  · exact cn.2.trans bn.2
  · rw [List.length_append, List.length_singleton]
    exact cn.1.trans bn.1
  · rw [calls, Track.accepted_snoc, Track.accepted_snoc, Track.accepted_snoc, i.acc]
    simp [Track.taken, List.range_succ]
  · intro k
    rw [calls, Track.content_snoc, Track.content_snoc, Track.content_snoc, i.content, List.getElem?_append]
    by_cases hk : k < cs.length
    · simp [Track.addition, hk]
      omega
    · rw [if_neg hk, List.getElem?_eq_none (l := cs) (by omega)]
      by_cases he : k = cs.length
      · simp [Track.addition, he]
      · rw [List.getElem?_eq_none (l := [s.parts]) (by simp; omega)]
        simp [Track.addition]
        omega
  · intro g hg
    rw [calls]
    rw [List.length_append, List.length_singleton] at hg
    by_cases h : g < cs.length
    · simp [i.ended g h]
    · have : g = cs.length := by omega
      simp [this]
  · rw [calls, Track.ending_snoc, Track.ending_snoc, Track.ending_snoc, i.ending]
    simp

end Verif.Js.CatalogTrack
