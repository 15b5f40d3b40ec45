import Mathlib.Data.List.Flatten
import Verif.Lemmas.IndexSet
import Verif.Spec.EquationSplit

/-!
# Lemmas on the splitting of equations
-/

namespace Marco.Split
open Marco Spec

theorem mem_inverse_foldl {E V : Finset Point} : ∀ (fs : List (Point → Point)) (acc : Finset Point)
    (p : Point), p ∈ fs.foldl (fun acc f => acc ∩ preimage f V E) acc ↔
      p ∈ acc ∧ ∀ f ∈ fs, p ∈ E ∧ f p ∈ V
  | [], acc, p => by simp
  | f :: fs, acc, p => by
    rw [List.foldl_cons, mem_inverse_foldl fs]
    simp [preimage, and_assoc]

theorem mem_inverseMap {E : Finset Point} {v : Partition} {p : Point} :
    p ∈ inverseMap E v ↔ p ∈ E ∧ ∀ f ∈ v.accesses, f p ∈ v.variableIndices := by
  unfold inverseMap
  rw [mem_inverse_foldl]
  constructor
  · rintro ⟨h, h'⟩
    exact ⟨h, fun f hf => (h' f hf).2⟩
  · rintro ⟨h, h'⟩
    exact ⟨h, fun f hf => ⟨h, h' f hf⟩⟩

theorem mem_union_foldl {α : Type} (g : α → Finset Point) : ∀ (l : List α) (acc : Finset Point)
    (u : Point), u ∈ l.foldl (fun acc a => acc ∪ g a) acc ↔ u ∈ acc ∨ ∃ a ∈ l, u ∈ g a
  | [], acc, u => by simp
  | a :: l, acc, u => by
    rw [List.foldl_cons, mem_union_foldl g l]
    simp [or_assoc]

theorem mem_reached {fs : List (Point → Point)} {s : Finset Point} {u : Point} :
    u ∈ reached fs s ↔ ∃ f ∈ fs, ∃ p ∈ s, f p = u := by
  unfold reached
  rw [mem_union_foldl]
  simp

/-! ### The partitions of the equation are a partition -/

/-- Nonempty, disjoint, and together the given set. -/
structure Parts (E : Finset Point) (qs : List Partition) : Prop where
  nonempty : ∀ q ∈ qs, q.equationIndices.Nonempty
  disj : qs.Pairwise fun a b => Disjoint a.equationIndices b.equationIndices
  cover : ∀ p, p ∈ E ↔ ∃ q ∈ qs, p ∈ q.equationIndices

theorem refineEqs_sub {inv : Finset Point} {v q r : Partition} (h : r ∈ refineEqs inv v q) :
    r.equationIndices ⊆ q.equationIndices := by
  unfold refineEqs at h
  simp only at h
  split_ifs at h with h1 h2
  · simp at h; subst h; exact Finset.Subset.refl _
  · simp at h; subst h; exact Finset.inter_subset_right
  · simp at h
    rcases h with h | h <;> subst h
    · exact Finset.inter_subset_right
    · exact Finset.sdiff_subset

theorem refineEqs_cover {inv : Finset Point} {v q : Partition} {p : Point}
    (h : p ∈ q.equationIndices) : ∃ r ∈ refineEqs inv v q, p ∈ r.equationIndices := by
  unfold refineEqs
  simp only
  split_ifs with h1 h2
  · exact ⟨q, by simp, h⟩
  · refine ⟨_, List.mem_singleton.2 rfl, ?_⟩
    by_contra h3
    have : p ∈ q.equationIndices \ (inv ∩ q.equationIndices) := Finset.mem_sdiff.2 ⟨h, h3⟩
    rw [h2] at this
    simp at this
  · by_cases h3 : p ∈ inv ∩ q.equationIndices
    · exact ⟨_, .head _, h3⟩
    · exact ⟨_, .tail _ (.head _), Finset.mem_sdiff.2 ⟨h, h3⟩⟩

theorem Parts.step {E : Finset Point} {qs : List Partition} (h : Parts E qs)
    (inv : Finset Point) (v : Partition) : Parts E (qs.flatMap (refineEqs inv v)) where
  nonempty := by
    intro r hr
    obtain ⟨q, hq, hr⟩ := List.mem_flatMap.1 hr
    have hn := h.nonempty q hq
    unfold refineEqs at hr
    simp only at hr
    split_ifs at hr with h1 h2
    · simp at hr; subst hr; exact hn
    · simp at hr; subst hr; exact Finset.nonempty_iff_ne_empty.2 h1
    · simp at hr
      rcases hr with hr | hr <;> subst hr
      · exact Finset.nonempty_iff_ne_empty.2 h1
      · exact Finset.nonempty_iff_ne_empty.2 (by simpa using h2)
  disj := by
    rw [List.pairwise_flatMap]
    refine ⟨fun q hq => ?_, h.disj.imp fun {a b} hab x hx y hy => ?_⟩
    · unfold refineEqs
      simp only
      split_ifs with h1 h2
      · simp
      · simp
      · simp only [List.pairwise_cons, List.mem_cons, List.not_mem_nil, or_false, forall_eq,
          false_imp_iff, implies_true, List.Pairwise.nil, and_true]
        exact Finset.disjoint_sdiff
    · exact Finset.disjoint_of_subset_left (refineEqs_sub hx)
        (Finset.disjoint_of_subset_right (refineEqs_sub hy) hab)
  cover := by
    intro p
    rw [h.cover]
    constructor
    · rintro ⟨q, hq, hp⟩
      obtain ⟨r, hr, hp⟩ := refineEqs_cover (inv := inv) (v := v) hp
      exact ⟨r, List.mem_flatMap.2 ⟨q, hq, hr⟩, hp⟩
    · rintro ⟨r, hr, hp⟩
      obtain ⟨q, hq, hr⟩ := List.mem_flatMap.1 hr
      exact ⟨q, hq, refineEqs_sub hr hp⟩

theorem parts_init {E : Finset Point} (h : E.Nonempty) : Parts E [⟨E, ∅, []⟩] :=
  ⟨by simpa using h, by simp, by simp⟩

theorem parts_foldl {E : Finset Point} (g : Partition → Finset Point) : ∀ (vs qs : List Partition),
    Parts E qs → Parts E (vs.foldl (fun qs v => qs.flatMap (refineEqs (g v) v)) qs)
  | [], _, h => h
  | v :: vs, _, h => parts_foldl g vs _ (h.step (g v) v)

theorem equationPartitions_parts {E : Finset Point} (h : E.Nonempty) (vs : List Partition) :
    Parts E (equationPartitions E vs) :=
  parts_foldl _ vs _ (parts_init h)

/-- Disjoint sets that cover a set have its elements, each once. -/
theorem sum_val : ∀ (l : List (Finset Point)) (E : Finset Point), l.Pairwise Disjoint →
    (∀ p, p ∈ E ↔ ∃ s ∈ l, p ∈ s) → (l.map Finset.val).sum = E.val
  | [], E, _, hc => by
    have : E = ∅ := by
      ext p
      simp [hc p]
    simp [this]
  | q :: qs, E, hd, hc => by
    rw [List.pairwise_cons] at hd
    have h1 := sum_val qs (E \ q) hd.2 (fun p => by
      rw [Finset.mem_sdiff, hc]
      constructor
      · rintro ⟨⟨r, hr, hp⟩, hn⟩
        rcases List.mem_cons.1 hr with rfl | hr
        · exact absurd hp hn
        · exact ⟨r, hr, hp⟩
      · rintro ⟨r, hr, hp⟩
        exact ⟨⟨r, List.mem_cons_of_mem _ hr, hp⟩,
          fun hq => Finset.disjoint_left.1 (hd.1 r hr) hq hp⟩)
    rw [List.map_cons, List.sum_cons, h1]
    have hsub : q ⊆ E := fun p hp => (hc p).2 ⟨q, by simp, hp⟩
    rw [Finset.sdiff_val]
    exact add_tsub_cancel_of_le (Finset.val_le_iff.2 hsub)

theorem Parts.sum {E : Finset Point} {qs : List Partition} (h : Parts E qs) :
    (qs.map fun q => q.equationIndices.val).sum = E.val := by
  have := sum_val (qs.map Partition.equationIndices) E (List.pairwise_map.2 h.disj)
    (by simpa using h.cover)
  rwa [List.map_map] at this

/-! ### The partitions of the matched variable -/

/-- The partitions are the classes of the elements that the accesses do not tell apart. -/
structure Classes (E M : Finset Point) (L : List (Point → Point)) (ps : List Partition) :
    Prop where
  nonempty : ∀ p ∈ ps, p.variableIndices.Nonempty
  disj : ps.Pairwise fun a b => Disjoint a.variableIndices b.variableIndices
  cover : ∀ u, u ∈ M ↔ ∃ p ∈ ps, u ∈ p.variableIndices
  cls : ∀ p ∈ ps, ∀ v ∈ p.variableIndices, ∀ u, u ∈ p.variableIndices ↔
    u ∈ M ∧ ∀ f ∈ L, (u ∈ E.image f ↔ v ∈ E.image f)
  sub : ∀ p ∈ ps, ∀ f ∈ p.accesses, f ∈ L
  accs : ∀ p ∈ ps, ∀ v ∈ p.variableIndices, ∀ f ∈ L, (f ∈ p.accesses ↔ v ∈ E.image f)

theorem classes_init {E M : Finset Point} (h : M.Nonempty) : Classes E M [] [⟨∅, M, []⟩] :=
  ⟨by simpa using h, by simp, by simp, by simp, by simp, by simp⟩

theorem mem_refineVars {S : Finset Point} {f : Point → Point} {p r : Partition}
    (h : r ∈ refineVars S f p) (hn : p.variableIndices.Nonempty) :
    r.variableIndices.Nonempty ∧ ((r.variableIndices = p.variableIndices ∩ S ∧
        r.accesses = p.accesses ++ [f]) ∨
      (r.variableIndices = p.variableIndices \ S ∧ r.accesses = p.accesses)) := by
  unfold refineVars at h
  simp only at h
  split_ifs at h with h1 h2
  · simp at h; subst h
    refine ⟨hn, Or.inr ⟨?_, rfl⟩⟩
    rw [Finset.sdiff_eq_self_of_disjoint]
    rw [Finset.disjoint_iff_inter_eq_empty, Finset.inter_comm]
    exact h1
  · simp at h; subst h
    exact ⟨Finset.nonempty_iff_ne_empty.2 h1, Or.inl ⟨Finset.inter_comm _ _, rfl⟩⟩
  · simp at h
    rcases h with h | h <;> subst h
    · exact ⟨Finset.nonempty_iff_ne_empty.2 h1, Or.inl ⟨Finset.inter_comm _ _, rfl⟩⟩
    · exact ⟨Finset.nonempty_iff_ne_empty.2 (by simpa using h2), Or.inr ⟨rfl, rfl⟩⟩

theorem refineVars_cover {S : Finset Point} {f : Point → Point} {p : Partition} {u : Point}
    (h : u ∈ p.variableIndices) : ∃ r ∈ refineVars S f p, u ∈ r.variableIndices := by
  unfold refineVars
  simp only
  split_ifs with h1 h2
  · exact ⟨p, by simp, h⟩
  · refine ⟨_, List.mem_singleton.2 rfl, ?_⟩
    by_contra h3
    have : u ∈ p.variableIndices \ (S ∩ p.variableIndices) := Finset.mem_sdiff.2 ⟨h, h3⟩
    rw [h2] at this
    simp at this
  · by_cases h3 : u ∈ S ∩ p.variableIndices
    · exact ⟨_, .head _, h3⟩
    · exact ⟨_, .tail _ (.head _), Finset.mem_sdiff.2 ⟨h, h3⟩⟩

theorem refineVars_sub {S : Finset Point} {f : Point → Point} {p r : Partition}
    (h : r ∈ refineVars S f p) (hn : p.variableIndices.Nonempty) :
    r.variableIndices ⊆ p.variableIndices := by
  rcases (mem_refineVars h hn).2 with ⟨h, -⟩ | ⟨h, -⟩ <;> rw [h]
  · exact Finset.inter_subset_left
  · exact Finset.sdiff_subset

theorem Classes.step {E M : Finset Point} {L : List (Point → Point)} {ps : List Partition}
    (h : Classes E M L ps) (f : Point → Point) :
    Classes E M (L ++ [f]) (ps.flatMap (refineVars (E.image f) f)) where
  nonempty := by
    intro r hr
    obtain ⟨p, hp, hr⟩ := List.mem_flatMap.1 hr
    exact (mem_refineVars hr (h.nonempty p hp)).1
  disj := by
    rw [List.pairwise_flatMap]
    refine ⟨fun p hp => ?_, ?_⟩
    · unfold refineVars
      simp only
      split_ifs with h1 h2
      · simp
      · simp
      · simp only [List.pairwise_cons, List.mem_cons, List.not_mem_nil, or_false, forall_eq,
          false_imp_iff, implies_true, List.Pairwise.nil, and_true]
        exact Finset.disjoint_sdiff
    · refine (List.Pairwise.and_mem.1 h.disj).imp fun {a b} hab x hx y hy => ?_
      exact Finset.disjoint_of_subset_left (refineVars_sub hx (h.nonempty _ hab.1))
        (Finset.disjoint_of_subset_right (refineVars_sub hy (h.nonempty _ hab.2.1)) hab.2.2)
  cover := by
    intro u
    rw [h.cover]
    constructor
    · rintro ⟨p, hp, hu⟩
      obtain ⟨r, hr, hu⟩ := refineVars_cover (S := E.image f) (f := f) hu
      exact ⟨r, List.mem_flatMap.2 ⟨p, hp, hr⟩, hu⟩
    · rintro ⟨r, hr, hu⟩
      obtain ⟨p, hp, hr⟩ := List.mem_flatMap.1 hr
      exact ⟨p, hp, refineVars_sub hr (h.nonempty p hp) hu⟩
  cls := by
    intro r hr v hv u
    obtain ⟨p, hp, hr⟩ := List.mem_flatMap.1 hr
    have hvp := refineVars_sub hr (h.nonempty p hp) hv
    have hc := h.cls p hp v hvp u
    rcases (mem_refineVars hr (h.nonempty p hp)).2 with ⟨h1, -⟩ | ⟨h1, -⟩ <;> rw [h1] at hv ⊢
    · rw [Finset.mem_inter, hc]
      have hv' := (Finset.mem_inter.1 hv).2
      constructor
      · rintro ⟨⟨hm, hl⟩, hf⟩
        refine ⟨hm, fun g hg => ?_⟩
        rcases List.mem_append.1 hg with hg | hg
        · exact hl g hg
        · rw [List.mem_singleton.1 hg]; exact ⟨fun _ => hv', fun _ => hf⟩
      · rintro ⟨hm, hl⟩
        exact ⟨⟨hm, fun g hg => hl g (List.mem_append_left _ hg)⟩,
          (hl f (by simp)).2 hv'⟩
    · rw [Finset.mem_sdiff, hc]
      have hv' := (Finset.mem_sdiff.1 hv).2
      constructor
      · rintro ⟨⟨hm, hl⟩, hf⟩
        refine ⟨hm, fun g hg => ?_⟩
        rcases List.mem_append.1 hg with hg | hg
        · exact hl g hg
        · rw [List.mem_singleton.1 hg]; exact ⟨fun h => absurd h hf, fun h => absurd h hv'⟩
      · rintro ⟨hm, hl⟩
        exact ⟨⟨hm, fun g hg => hl g (List.mem_append_left _ hg)⟩,
          fun hf => hv' ((hl f (by simp)).1 hf)⟩
  sub := by
    intro r hr g hg
    obtain ⟨p, hp, hr⟩ := List.mem_flatMap.1 hr
    rcases (mem_refineVars hr (h.nonempty p hp)).2 with ⟨-, h1⟩ | ⟨-, h1⟩ <;> rw [h1] at hg
    · rcases List.mem_append.1 hg with hg | hg
      · exact List.mem_append_left _ (h.sub p hp g hg)
      · exact List.mem_append_right _ hg
    · exact List.mem_append_left _ (h.sub p hp g hg)
  accs := by
    intro r hr v hv g hg
    obtain ⟨p, hp, hr⟩ := List.mem_flatMap.1 hr
    have hvp := refineVars_sub hr (h.nonempty p hp) hv
    have ha := h.accs p hp v hvp
    have hs := h.sub p hp
    rcases (mem_refineVars hr (h.nonempty p hp)).2 with ⟨h1, h2⟩ | ⟨h1, h2⟩ <;>
      rw [h1] at hv <;> rw [h2]
    · have hv' := (Finset.mem_inter.1 hv).2
      rw [List.mem_append, List.mem_singleton]
      constructor
      · rintro (hg | rfl)
        · exact (ha g (hs g hg)).1 hg
        · exact hv'
      · intro hi
        rcases List.mem_append.1 hg with hg | hg
        · exact Or.inl ((ha g hg).2 hi)
        · exact Or.inr (List.mem_singleton.1 hg)
    · have hv' := (Finset.mem_sdiff.1 hv).2
      rcases List.mem_append.1 hg with hg | hg
      · exact ha g hg
      · rw [List.mem_singleton.1 hg]
        exact ⟨fun hf => absurd ((ha f (hs f hf)).1 hf) hv', fun hf => absurd hf hv'⟩

theorem classes_foldl {E M : Finset Point} : ∀ (fs L : List (Point → Point)) (ps : List Partition),
    Classes E M L ps →
    Classes E M (L ++ fs) (fs.foldl (fun ps f => ps.flatMap (refineVars (E.image f) f)) ps)
  | [], L, ps, h => by simpa using h
  | f :: fs, L, ps, h => by
    have := classes_foldl fs (L ++ [f]) _ (h.step f)
    simpa using this

theorem variablePartitions_classes {E M : Finset Point} (h : M.Nonempty)
    (fs : List (Point → Point)) : Classes E M fs (variablePartitions E fs M) := by
  unfold variablePartitions
  simpa using classes_foldl fs [] _ (classes_init h)

/-! ### The partitions of the equation, when an access reaches every matched element -/

/-- Each partition is the inverse image of a partition of the variable, or what is left. -/
def Kinds (E : Finset Point) (vs qs : List Partition) : Prop :=
  ∀ q ∈ qs, (q.accesses = [] ∧ q.variableIndices = ∅ ∧
      ∀ p, p ∈ q.equationIndices ↔ p ∈ E ∧ ∀ v ∈ vs, p ∉ inverseMap E v) ∨
    ∃ v ∈ vs, q.accesses = v.accesses ∧ q.equationIndices = inverseMap E v ∧
      q.variableIndices = reached v.accesses q.equationIndices

theorem Kinds.step {E : Finset Point} {vs qs : List Partition} {v : Partition}
    (h : Kinds E vs qs) (hd : ∀ x ∈ vs, Disjoint (inverseMap E x) (inverseMap E v)) :
    Kinds E (vs ++ [v]) (qs.flatMap (refineEqs (inverseMap E v) v)) := by
  intro r hr
  obtain ⟨q, hq, hr⟩ := List.mem_flatMap.1 hr
  have hinv : ∀ p, p ∈ inverseMap E v → p ∈ E := fun p hp => (mem_inverseMap.1 hp).1
  rcases h q hq with ⟨h1, h2, h3⟩ | ⟨x, hx, h1, h2, h3⟩
  · unfold refineEqs at hr
    simp only at hr
    have hin : ∀ p, p ∈ inverseMap E v ∩ q.equationIndices ↔ p ∈ inverseMap E v := by
      intro p
      rw [Finset.mem_inter, h3]
      refine ⟨fun h => h.1, fun h => ⟨h, hinv p h, fun x hx hp => ?_⟩⟩
      exact Finset.disjoint_left.1 (hd x hx) hp h
    have hin' : inverseMap E v ∩ q.equationIndices = inverseMap E v := by ext p; exact hin p
    rw [hin'] at hr
    have new : ∀ s, s = inverseMap E v → ∃ x ∈ vs ++ [v], (q.accesses ++ v.accesses) = x.accesses ∧
        s = inverseMap E x ∧ reached (q.accesses ++ v.accesses) s = reached x.accesses s := by
      intro s hs
      exact ⟨v, by simp, by simp [h1], hs, by simp [h1]⟩
    have old : ∀ p, p ∈ q.equationIndices \ inverseMap E v ↔
        p ∈ E ∧ ∀ x ∈ vs ++ [v], p ∉ inverseMap E x := by
      intro p
      rw [Finset.mem_sdiff, h3]
      simp only [List.mem_append, List.mem_singleton]
      constructor
      · rintro ⟨⟨a, b⟩, c⟩
        refine ⟨a, fun x hx => ?_⟩
        rcases hx with hx | rfl
        · exact b x hx
        · exact c
      · rintro ⟨a, b⟩
        exact ⟨⟨a, fun x hx => b x (Or.inl hx)⟩, b v (Or.inr rfl)⟩
    split_ifs at hr with hc hc2
    · simp at hr; subst hr
      left
      refine ⟨h1, h2, fun p => ?_⟩
      rw [← old, hc]; simp
    · simp at hr; subst hr
      exact Or.inr (new _ rfl)
    · simp at hr
      rcases hr with hr | hr
      · subst hr
        exact Or.inr (by simpa using new _ rfl)
      · subst hr
        left
        exact ⟨h1, by simp [h1, reached], old⟩
  · have hc : inverseMap E v ∩ q.equationIndices = ∅ := by
      rw [h2, Finset.inter_comm]
      exact Finset.disjoint_iff_inter_eq_empty.1 (hd x hx)
    unfold refineEqs at hr
    simp only [hc] at hr
    simp at hr; subst hr
    exact Or.inr ⟨x, List.mem_append_left _ hx, h1, h2, h3⟩

theorem kinds_foldl {E : Finset Point} : ∀ (ws vs qs : List Partition), Kinds E vs qs →
    (vs ++ ws).Pairwise (fun a b => Disjoint (inverseMap E a) (inverseMap E b)) →
    Kinds E (vs ++ ws) (ws.foldl (fun qs v => qs.flatMap (refineEqs (inverseMap E v) v)) qs)
  | [], vs, qs, h, _ => by simpa using h
  | w :: ws, vs, qs, h, hp => by
    have hd : ∀ x ∈ vs, Disjoint (inverseMap E x) (inverseMap E w) := by
      intro x hx
      exact (List.pairwise_append.1 hp).2.2 x hx w (by simp)
    have := kinds_foldl ws (vs ++ [w]) _ (h.step hd) (by simpa using hp)
    simpa using this

theorem equationPartitions_kinds {E : Finset Point} {vs : List Partition}
    (hp : vs.Pairwise (fun a b => Disjoint (inverseMap E a) (inverseMap E b))) :
    Kinds E vs (equationPartitions E vs) := by
  have := kinds_foldl (E := E) vs [] [⟨E, ∅, []⟩] (fun q hq => by
    rw [List.mem_singleton.1 hq]
    exact Or.inl ⟨rfl, rfl, fun p => by simp⟩) (by simpa using hp)
  unfold equationPartitions
  simpa using this

/-! ### Boxes -/

theorem mem_boxPoints : ∀ {b : Box} {p : Point}, p ∈ boxPoints b ↔ InB p b
  | [], p => by
    simp only [boxPoints, Finset.mem_singleton, InB]
    constructor
    · rintro rfl; exact .nil
    · intro h; cases h; rfl
  | r :: b, p => by
    simp only [boxPoints, Finset.mem_biUnion, Finset.mem_Ico, Finset.mem_image, mem_boxPoints, InB]
    constructor
    · rintro ⟨x, hx, q, hq, rfl⟩
      exact .cons hx hq
    · intro h
      cases h with
      | cons h1 h2 => exact ⟨_, h1, _, h2, rfl⟩

theorem mem_points {rs : List Box} {p : Point} : p ∈ points rs ↔ ∃ b ∈ rs, InB p b := by
  unfold points
  rw [mem_union_foldl]
  simp [mem_boxPoints]

theorem size_one_iff {b : Box} : b.size = 1 ↔ ∃ x, ∀ p, InB p b ↔ p = x := by
  constructor
  · intro h
    rw [← Props.enum_length, List.length_eq_one_iff] at h
    obtain ⟨x, hx⟩ := h
    refine ⟨x, fun p => ?_⟩
    rw [← Props.mem_enum, hx, List.mem_singleton]
  · rintro ⟨x, hx⟩
    have h1 : Props.enum b = [x] := by
      have hn : (Props.enum b).Nodup :=
        (Props.enum_sorted b).imp fun {p q} h => lexLt_ne h
      have hm : ∀ p, p ∈ Props.enum b ↔ p = x := fun p => by rw [Props.mem_enum, hx]
      match he : Props.enum b, hn, hm with
      | [], _, hm => exact absurd ((hm x).2 rfl) (by simp)
      | [y], _, hm => rw [(hm y).1 (by simp)]
      | y :: z :: l, hn, hm =>
        rw [List.nodup_cons] at hn
        exact absurd (by rw [(hm y).1 (by simp), (hm z).1 (by simp)]; simp) hn.1
    rw [← Props.enum_length, h1]; rfl

theorem inB_exists : ∀ {b : Box}, (∀ r ∈ b, r.b < r.e) → ∃ p, InB p b
  | [], _ => ⟨[], .nil⟩
  | r :: b, h => by
    obtain ⟨p, hp⟩ := inB_exists (b := b) fun x hx => h x (by simp [hx])
    exact ⟨r.b :: p, .cons ⟨le_refl _, h r (by simp)⟩ hp⟩

/-! ### Reducing a template -/

theorem single_iff {r : Range} : single r = true ↔ r.e - r.b = 1 := by
  simp only [single, Range.size, beq_iff_eq]
  omega

theorem inB_expand : ∀ {r : Box} {p : Point}, InB p r ↔
    ∃ q, InB q (r.filter fun x => !single x) ∧ expand r q = p
  | [], p => by
    simp only [List.filter_nil, expand]
    constructor
    · intro h; cases h; exact ⟨[], .nil, rfl⟩
    · rintro ⟨_, _, rfl⟩; exact .nil
  | x :: r, p => by
    by_cases hx : single x = true
    · simp only [List.filter_cons, hx, Bool.not_true, Bool.false_eq_true, if_false, expand, if_true]
      have hb := single_iff.1 hx
      constructor
      · intro h
        cases h with
        | cons h1 h2 =>
          obtain ⟨q, hq, rfl⟩ := inB_expand.1 h2
          refine ⟨q, hq, ?_⟩
          have := h1.1; have := h1.2
          congr 1; omega
      · rintro ⟨q, hq, rfl⟩
        exact .cons ⟨le_refl _, by omega⟩ (inB_expand.2 ⟨q, hq, rfl⟩)
    · simp only [List.filter_cons, Bool.not_eq_true] at hx ⊢
      simp only [hx, Bool.not_false, if_true]
      constructor
      · intro h
        cases h with
        | cons h1 h2 =>
          obtain ⟨q, hq, rfl⟩ := inB_expand.1 h2
          exact ⟨_ :: q, .cons h1 hq, by simp [expand, hx]⟩
      · rintro ⟨q, hq, rfl⟩
        cases hq with
        | cons h1 h2 =>
          simp only [expand, hx]
          exact .cons h1 (inB_expand.2 ⟨_, h2, rfl⟩)

theorem expand_inj : ∀ {r : Box} {p q : Point}, p.length = (r.filter fun x => !single x).length →
    q.length = (r.filter fun x => !single x).length → expand r p = expand r q → p = q
  | [], p, q, hp, hq, _ => by
    simp at hp hq
    rw [hp, hq]
  | x :: r, p, q, hp, hq, h => by
    by_cases hx : single x = true
    · simp only [List.filter_cons, hx, Bool.not_true, Bool.false_eq_true, if_false] at hp hq
      simp only [expand, hx, if_true, List.cons.injEq, true_and] at h
      exact expand_inj hp hq h
    · simp only [Bool.not_eq_true] at hx
      simp only [List.filter_cons, hx, Bool.not_false, if_true, List.length_cons] at hp hq
      match p, q, hp, hq with
      | a :: p, b :: q, hp, hq =>
        simp only [expand, hx, Bool.false_eq_true, if_false, List.cons.injEq] at h
        rw [h.1, expand_inj (by simpa using hp) (by simpa using hq) h.2]

theorem inB_length {p : Point} {b : Box} (h : InB p b) : p.length = b.length :=
  (List.Forall₂.length_eq h).symm

theorem expand_val (r : Box) : (boxPoints (r.filter fun x => !single x)).val.map (expand r) =
    (boxPoints r).val := by
  have h1 : boxPoints r = (boxPoints (r.filter fun x => !single x)).image (expand r) := by
    ext p
    simp only [Finset.mem_image, mem_boxPoints]
    exact inB_expand
  rw [h1, Finset.image_val_of_injOn]
  intro p hp q hq h
  exact expand_inj (inB_length (mem_boxPoints.1 hp)) (inB_length (mem_boxPoints.1 hq)) h

end Marco.Split
