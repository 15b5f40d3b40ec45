import Verif.Lemmas.TreeFan

/-! Helper lemmas relating the invariant of the proofs with the specification. -/

namespace Marco
namespace RTree
open Spec
open IndexSet (SameSet)

variable {k : Nat}

/-- No exemptions. -/
abbrev noE : Nat → Prop := fun _ => False

theorem Wf.exact {lab : Nat → Nat} {h : Nat} {n : Node} (hw : Wf lab noE k h n) :
    Exact k n ∧ Uniform h n := by
  induction h generalizing n with
  | zero =>
    obtain ⟨⟨_, _, he⟩, h1, _, h3⟩ := hw
    refine ⟨.mk ⟨.inl h1, h3, he.resolve_left (fun h => h)⟩ ?_, .leaf h1⟩
    rw [h1]; simp
  | succ h ih =>
    obtain ⟨⟨_, _, he⟩, h1, h2, h3⟩ := hw
    exact ⟨.mk ⟨.inr h1, by rw [h1]; simp, he.resolve_left (fun h => h)⟩ (fun c hc => (ih (h3 c hc)).1),
      .inner h2 (fun c hc => (ih (h3 c hc)).2)⟩

theorem Exact.obs_ne {n : Node} (h : Exact k n) (hc : n.ch = []) : n.obs ≠ [] := by
  intro ho
  have := (AllNodes.self h).exact
  unfold computeBoundary at this
  rw [if_pos (by simp [Node.isLeaf, hc]), ho] at this
  simp [mbrList] at this

theorem wf_of_exact : ∀ {h : Nat} {n : Node}, Exact k n → Uniform h n → n.ids.Nodup →
    ∃ lab, Wf lab noE k h n := by
  intro h
  induction h with
  | zero =>
    intro n he hu _
    cases hu with
    | leaf hc =>
      exact ⟨fun _ => 0, ⟨rfl, he.ranked, .inr (AllNodes.self he).exact⟩, hc, Exact.obs_ne he hc,
        (AllNodes.self he).obs⟩
  | succ h ih =>
    intro n he hu hnd
    cases hu with
    | inner hc hcs =>
      rw [Node.ids_eq, List.nodup_cons] at hnd
      -- labels for a list of subtrees
      have hlist : ∀ l : List Node, (∀ c ∈ l, c ∈ n.ch) → (Node.idsL l).Nodup →
          ∃ lab, ∀ c ∈ l, Wf lab noE k h c := by
        intro l
        induction l with
        | nil => exact fun _ _ => ⟨fun _ => 0, by simp⟩
        | cons c l ihl =>
          intro hsub hnd
          rw [Node.idsL, List.nodup_append] at hnd
          obtain ⟨lab1, h1⟩ := ih (AllNodes.child he (hsub c (by simp))) (hcs c (hsub c (by simp))) hnd.1
          obtain ⟨lab2, h2⟩ := ihl (fun c hc => hsub c (by simp [hc])) hnd.2.1
          refine ⟨fun i => if i ∈ c.ids then lab1 i else lab2 i, ?_⟩
          intro x hx
          rcases List.mem_cons.1 hx with rfl | hx
          · exact h1.congr (fun i hi => by simp [hi]) (fun _ _ h => h)
          · refine (h2 x hx).congr (fun i hi => ?_) (fun _ _ h => h)
            have : i ∉ c.ids := fun hi' => hnd.2.2 i hi' i (mem_idsL.2 ⟨x, hx, hi⟩) rfl
            simp [this]
      obtain ⟨lab, hl⟩ := hlist n.ch (fun _ h => h) hnd.2
      have hobs : n.obs = [] := (AllNodes.self he).excl.resolve_left hc
      refine ⟨fun i => if i = n.id then h + 1 else lab i, ⟨by simp, he.ranked,
        .inr (AllNodes.self he).exact⟩, hobs, hc, ?_⟩
      intro c hcm
      refine (hl c hcm).congr (fun i hi => ?_) (fun _ _ h => h)
      have : i ≠ n.id := by
        intro hh
        exact hnd.1 (by rw [← hh]; exact mem_idsL.2 ⟨c, hcm, hi⟩)
      simp [this]

/-- Boundaries that are minimum bounding boxes are those computed by the program. -/
theorem exact_of_mbr {n : Node} (h1 : AllNodes (fun m => m.ch = [] ∨ m.obs = []) n)
    (h2 : AllNodes (fun m => Ranked k m.bd) n) (h3 : AllNodes (fun m => IsMBR m.bd m.objects) n)
    (h4 : AllNodes (fun m => m.ch ≠ [] ∨ m.obs ≠ []) n) (h5 : ∀ o ∈ n.objects, Ranked k o) :
    Exact k n := by
  induction n using Node.ind with
  | _ n ih =>
    have hsub : ∀ c ∈ n.ch, ∀ o ∈ c.objects, o ∈ n.objects := by
      intro c hc o ho
      rw [Node.objects_inner (List.ne_nil_of_mem hc), Node.mem_objectsL]
      exact ⟨c, hc, ho⟩
    refine .mk ⟨h1.self, ?_, ?_⟩ fun c hc => ih c hc (h1.child hc) (h2.child hc) (h3.child hc) (h4.child hc)
      (fun o ho => h5 o (hsub c hc o ho))
    · intro o ho
      rcases h1.self with hc | hc
      · exact h5 o (by rw [Node.objects_leaf hc]; exact ho)
      · rw [hc] at ho; simp at ho
    · obtain ⟨b, hb⟩ := computeBoundary_isSome h4.self
      rw [hb]
      congr 1
      have hbd : Ranked k n.bd := h2.self
      obtain ⟨m1, m2⟩ := h3.self
      unfold computeBoundary at hb
      split at hb
      · rename_i hl
        have hc : n.ch = [] := by simpa [Node.isLeaf] using hl
        rw [Node.objects_leaf hc] at m1 m2 h5
        obtain ⟨s1, s2, s3⟩ := mbrList_spec hb h5
        exact box_ext s1.1.2 hbd.1.2 (s3 _ m1) (m2 b (s1.2.trans hbd.2.symm) s2)
      · rename_i hl
        have hc : n.ch ≠ [] := by simpa [Node.isLeaf] using hl
        have hrk : ∀ o ∈ n.ch.map Node.bd, Ranked k o := by
          intro o ho
          obtain ⟨c, hc, rfl⟩ := List.mem_map.1 ho
          exact (h2.child hc).self
        obtain ⟨s1, s2, s3⟩ := mbrList_spec hb hrk
        refine box_ext s1.1.2 hbd.1.2 (s3 _ ?_) (m2 b (s1.2.trans hbd.2.symm) ?_)
        · intro o ho
          obtain ⟨c, hc, rfl⟩ := List.mem_map.1 ho
          have hcr : Ranked k c.bd := (h2.child hc).self
          exact (h3.child hc).self.2 n.bd (hbd.2.trans hcr.2.symm) (fun o ho => m1 o (hsub c hc o ho))
        · intro o ho
          rw [Node.objects_inner hc, Node.mem_objectsL] at ho
          obtain ⟨c, hcm, ho⟩ := ho
          exact subB_trans ((h3.child hcm).self.1 o ho) (s2 _ (List.mem_map.2 ⟨c, hcm, rfl⟩))

theorem allNodes_and {P Q : Node → Prop} {n : Node} (h1 : AllNodes P n) (h2 : AllNodes Q n) :
    AllNodes (fun m => P m ∧ Q m) n := by
  induction n using Node.ind with
  | _ n ih => exact .mk ⟨h1.self, h2.self⟩ fun c hc => ih c hc (h1.child hc) (h2.child hc)

theorem treeOk_of_inv {mn mx next : Nat} {t : Node} (hmn : 1 ≤ mn) (h : TreeInv mn mx k t)
    (hlt : ∀ i ∈ t.ids, i < next) :
    (∃ lab H, TreeOk lab noE k H next t) ∧ FanN mn mx [] t := by
  have hne : AllNodes (fun m => m.ch ≠ [] ∨ m.obs ≠ []) t := by
    refine .mk (ne_of_fanOut (by have := h.root.1; omega)) fun c hc => ?_
    exact (h.fan c hc).imp fun m hm => ne_of_fanOut (by omega)
  have hex := exact_of_mbr h.excl h.bds h.mbr hne h.objs
  obtain ⟨d, hd⟩ := h.depth
  obtain ⟨lab, hl⟩ := wf_of_exact hex hd h.addrs
  exact ⟨⟨lab, d, hl, h.addrs, hlt⟩, h.root.2, fun hh => absurd rfl hh, h.fan⟩

theorem Exact.bds {n : Node} (h : Exact k n) : AllNodes (fun m => Ranked k m.bd) n := by
  induction n using Node.ind with
  | _ n ih => exact .mk h.ranked fun c hc => ih c hc (AllNodes.child h hc)

theorem Exact.allMBR {n : Node} (h : Exact k n) : AllNodes (fun m => IsMBR m.bd m.objects) n := by
  induction n using Node.ind with
  | _ n ih =>
    refine .mk ⟨?_, fun b' _ hb => h.isMBR.2 b' hb⟩ fun c hc => ih c hc (AllNodes.child h hc)
    intro o ho
    exact (Covers.objects h.covers ho).2

theorem inv_of_treeOk {mn mx next H : Nat} {lab : Nat → Nat} {t : Node} (h : TreeOk lab noE k H next t)
    (hf : FanN mn mx [] t) : TreeInv mn mx k t := by
  obtain ⟨he, hu⟩ := h.wf.exact
  refine ⟨AllNodes.imp (fun m hm => hm.excl) he, h.wf.objects_ranked, he.bds, he.allMBR, ⟨?_, hf.1⟩, hf.2.2,
    ⟨H, hu⟩, h.nodup⟩
  by_contra hc
  have := fanOut_eq_zero.1 (by omega : t.fanOut = 0)
  exact absurd h.wf.ne (by simp [this])

end RTree
end Marco
