import Verif.Lemmas.PointIterator
import Verif.Props.C07_History
import Verif.Props.C09_FromRanges

/-!
# C08: the stored ranges stay disjoint and the size is the number of points

As for C07, an insertion may reach undefined behaviour; everything else holds.
-/

namespace Marco.Props
open Marco Spec RTree IndexSet

/-- What C08 says of a set: the ranges visited by the range iterator are disjoint, the size is the
number of points contained, and the point iterator visits each of them exactly once. -/
def EachOnce (k : Nat) (s : IndexSet) : Prop :=
  (∃ rs, EmitsObj (objBegin s.root) rs ∧ DisjL rs) ∧
  CountIs (fun p => p.length = k ∧ s.containsPoint p = true) s.size ∧
  ∀ fuel, 1 ≤ fuel → ∃ it ps, pointBegin fuel s = some it ∧ EmitsPts fuel it ps ∧ ps.Nodup ∧
    ∀ p : Point, p ∈ ps ↔ p.length = k ∧ s.containsPoint p = true

/-- The full claim C08. -/
def C08_full : Prop := ∀ (k : Nat) (ops : List InsertOp), 0 < k → (∀ o ∈ ops, o.Valid k) → ∀ fuel,
  runInserts cfg fuel IndexSet.empty ops ≠ .error .ub ∧
  ∀ s, runInserts cfg fuel IndexSet.empty ops = .ok s → EachOnce k s

theorem C08_history_false : ¬ C08_full := by
  intro h
  refine (h 2 (badHistory.map .box) (by decide) ?_ 100).1 ?_
  · have h2 : ∀ b ∈ badHistory, Ranked 2 b := by unfold Ranked; decide +kernel
    intro o ho
    obtain ⟨b, hb, rfl⟩ := List.mem_map.1 ho
    exact h2 b hb
  · have : (match runInserts cfg 100 IndexSet.empty (badHistory.map .box) with
      | .error .ub => true
      | _ => false) = true := by decide +kernel
    generalize runInserts cfg 100 IndexSet.empty (badHistory.map .box) = r at this
    match r, this with
    | .error .ub, _ => rfl

/-- Any well-formed set with disjoint ranges. -/
theorem C08_each_once {k : Nat} (hk : 0 < k) {s : IndexSet} (hs : SetOk k s)
    (hd : DisjL s.ranges) : EachOnce k s := by
  have hiff : ∀ p : Point, (p.length = k ∧ s.containsPoint p = true) ↔ Has s p := by
    intro p
    constructor
    · rintro ⟨h1, h2⟩
      exact (containsPoint_iff hs h1 hk).1 h2
    · intro hp
      have hl : p.length = k := by
        obtain ⟨b, hb, hpb⟩ := hp
        rw [← Box.inB_length hpb]
        exact (ranges_ranked hs b hb).2
      exact ⟨hl, (containsPoint_iff hs hl hk).2 hp⟩
  refine ⟨?_, ?_, ?_⟩
  · obtain ⟨h1, h2⟩ := objBegin_good hs
    exact ⟨s.ranges, emitsObj_of_good _ h1 h2, hd⟩
  · obtain ⟨l, h1, h2, h3⟩ := count_of_disj hs hd
    exact ⟨l, h1, fun p => (h2 p).trans (hiff p).symm, h3⟩
  · intro fuel hf
    obtain ⟨it, h1, h2⟩ := emitsPts_begin hs hf
    exact ⟨it, _, h1, h2, enumL_nodup hd, fun p => mem_enumL.trans (hiff p).symm⟩

/-- Any history that is executed without undefined behaviour, whatever the heuristics.

Missing with respect to C08: the absence of undefined behaviour, which is false in general. -/
theorem C08_history_partial {C : Cfg} {k fuel : Nat} (hk : 0 < k) (hC : AnyChoice C)
    (hook : C.hook = insertionHook) {s s' : IndexSet} (hs : StoredOk k s) (hd : DisjL s.ranges)
    {ops : List InsertOp} (ho : ∀ o ∈ ops, o.Valid k) (h : runInserts C fuel s ops = .ok s') :
    EachOnce k s' := by
  have hko : C.HookOk k := by
    refine ⟨?_, ?_⟩ <;> rw [hook]
    · exact fun _ hl => (insertionHook_spec hl).1
    · exact insertionHook_single
  obtain ⟨h1, _, h3⟩ := runInserts_spec hC.sound hko hs ho h
  exact C08_each_once hk h1.setOk (h3 hd)

/-- Any number of boxes that are apart: there is no undefined behaviour either. -/
theorem C08_apart_partial {k : Nat} (hk : 0 < k) (fuel : Nat) {bs : List Box}
    (hr : ∀ b ∈ bs, Ranked k b) (h : bs.Pairwise Apart) :
    ∃ s, runInserts cfg fuel IndexSet.empty (bs.map .box) = .ok s ∧ EachOnce k s := by
  obtain ⟨s, h1, _⟩ := C07_apart_partial fuel hr h
  refine ⟨s, h1, C08_history_partial hk cfg_anyChoice rfl storedOk_empty
    (by simp [IndexSet.empty, ranges, DisjL]) ?_ h1⟩
  intro o ho
  obtain ⟨b, hb, rfl⟩ := List.mem_map.1 ho
  exact hr b hb

/-- Any sixteen points, whatever their order and repetitions. -/
theorem C08_points_partial {k : Nat} (hk : 0 < k) (fuel : Nat) {ps : List Point}
    (hr : ∀ p ∈ ps, p.length = k) (hlen : ps.length ≤ maxElements) :
    ∃ s, runInserts cfg fuel IndexSet.empty (ps.map .point) = .ok s ∧ EachOnce k s := by
  obtain ⟨s, h1, _⟩ := C07_points_partial hk fuel hr hlen
  refine ⟨s, h1, C08_history_partial hk cfg_anyChoice rfl storedOk_empty
    (by simp [IndexSet.empty, ranges, DisjL]) ?_ h1⟩
  intro o ho
  obtain ⟨p, hp, rfl⟩ := List.mem_map.1 ho
  exact ⟨hr p hp, hk⟩

-- Overlapping insertions: seven points, each visited once.
example : ((runInserts cfg 100 IndexSet.empty [.box [⟨0, 3⟩], .box [⟨2, 5⟩], .point [1], .point [7],
    .box [⟨6, 8⟩]]).toOption.map fun s => (s.ranges, s.size)) =
    some ([[⟨0, 5⟩], [⟨6, 8⟩]], 7) := by decide +kernel

-- The first steps of the iterators on that set.
example : ((runInserts cfg 100 IndexSet.empty [.box [⟨0, 2⟩], .point [7]]).toOption.map fun s =>
    ((objBegin s.root).deref, (pointBegin 5 s).bind PointIter.deref,
      ((pointBegin 5 s).bind (PointIter.next 5)).bind PointIter.deref,
      (((pointBegin 5 s).bind (PointIter.next 5)).bind (PointIter.next 5)).bind PointIter.deref)) =
    some (some [⟨0, 2⟩], some [0], some [1], some [7]) := by decide +kernel

end Marco.Props
