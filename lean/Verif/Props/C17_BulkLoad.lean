import Verif.Lemmas.BulkLoad

/-!
# C17: bulk loading the spatial tree keeps it well formed

The full statement is false: the parent levels are cut in groups of `maxElements` nodes and the
last group of a level may have fewer than `minElements` nodes (RTree.h:844-857), so that
`isValid()` - asserted at RTree.h:876 - does not hold. The smallest case with the default
parameters has 68 objects. The rest of the property holds for every list.
-/

namespace Marco.Props
open Marco Spec RTree

/-- The full statement of C17 for the default parameters: for every non-empty list of boxes of
the same rank, `setFromObjects` succeeds, stores exactly these objects, and the tree satisfies
`isValid`. -/
def C17_full : Prop :=
  ∀ (k : Nat) (objs : List Box), objs ≠ [] → (∀ o ∈ objs, Ranked k o) →
    ∃ next n, setFromObjects 4 16 objs = some (next, n) ∧ n.objects.Perm objs ∧
      isValid 4 16 n = true

/-- 68 pairwise disjoint boxes of rank one. -/
def sixtyEight : List Box := (List.range 68).map fun i => [⟨2 * i, 2 * i + 1⟩]

theorem mbrsOkL_iff (l : List Node) : mbrsOkL l = true ↔ ∀ c ∈ l, mbrsOk c = true := by
  induction l with
  | nil => simp [mbrsOkL]
  | cons a as ih => simp [mbrsOkL, ih]

theorem mbrsOk_of_exact {k : Nat} {n : Node} (h : Exact k n) : mbrsOk n = true := by
  induction n using Node.ind with
  | _ n ih =>
    have he := (AllNodes.self h).exact
    cases n with
    | mk i b ch obs =>
      simp only [mbrsOk, Bool.and_eq_true, mbrsOkL_iff]
      refine ⟨?_, fun c hc => ih c hc (AllNodes.child h hc)⟩
      simp [mbrExact, he]

theorem fanOkL_iff (mn mx : Nat) (l : List Node) :
    fanOkL mn mx l = true ↔ ∀ c ∈ l, fanOk mn mx c = true := by
  induction l with
  | nil => simp [fanOkL]
  | cons a as ih => simp [fanOkL, ih]

/-- C17 fails with the default parameters. -/
theorem C17_bulk_false : ¬ C17_full := by
  intro h
  obtain ⟨next, n, h1, h2, h3⟩ := h 1 sixtyEight (by decide) (by
    intro o ho
    simp only [sixtyEight, List.mem_map] at ho
    obtain ⟨i, _, rfl⟩ := ho
    refine ⟨⟨by simp, ?_⟩, by simp⟩
    intro r hr
    simp only [List.mem_singleton] at hr
    subst hr
    unfold Range.Valid
    simp)
  have h4 : (setFromObjects 4 16 sixtyEight).map (fun r => isValid 4 16 r.2) = some false := by
    decide +kernel
  rw [h1] at h4
  simp [h3] at h4

/-- C17, proved part. For every non-empty list of boxes of rank `k` and every admissible choice
of the parameters, `setFromObjects` succeeds and the tree contains exactly the given objects,
every node boundary is the minimum bounding box of the objects below it, no node has more than
`maxElements` entries, and all leaves are at the same depth. When the objects form at most
`maxElements` groups (at most 67 objects with the default parameters) the tree is fully valid.

Missing with respect to the full statement: the minimum fan-out for larger lists, which is
false (`C17_bulk_false`). -/
theorem C17_bulk_partial (k mn mx : Nat) (hmn : 0 < mn) (hmx : 2 * mn ≤ mx)
    (hsq : mn * mn ≤ mx + 1 + mn) (objs : List Box) (hne : objs ≠ [])
    (hr : ∀ o ∈ objs, Ranked k o) :
    ∃ next n d, setFromObjects mn mx objs = some (next, n) ∧
      n.objects.Perm objs ∧
      AllNodes (fun m => IsMBR m.bd m.objects) n ∧
      AllNodes (fun m => m.fanOut ≤ mx) n ∧
      Uniform d n ∧
      mbrsOk n = true ∧
      (objs.length < (mx + 1) * mn → isValid mn mx n = true) := by
  obtain ⟨next, n, d, h1, h2, h3, h4, h5, h6, h7⟩ := setFromObjects_spec hmn hmx hsq hne hr
  refine ⟨next, n, d, h1, h3, ?_, h5, h4, mbrsOk_of_exact h2, ?_⟩
  · clear h1 h3 h4 h5 h6 h7
    induction n using Node.ind with
    | _ n ih =>
      refine .mk ⟨?_, fun c _ hc => (Exact.isMBR h2).2 c hc⟩
        fun c hc => ih c hc (AllNodes.child h2 hc)
      exact fun o ho => (Covers.objects (Exact.covers h2) ho).2
  · intro hlen
    unfold isValid
    rw [mbrsOk_of_exact h2, Bool.true_and, fanOkL_iff]
    -- the tree has at most two levels
    intro c hc
    unfold setFromObjects at h1
    simp only [Option.bind_eq_bind] at h1
    by_cases hl : objs.length > mx
    · rw [if_pos hl] at h1
      have hm := leafGroups_mem (objs := objs) hmn
      obtain ⟨ns, i1, i2, i3, i4⟩ := leafLevel_spec (k := k) (mx := mx) (leafGroups mn objs)
        (fun g hg => by
          have := (hm g hg).1
          intro h; rw [h] at this; simp at this; omega)
        (fun g hg o ho => hr o ((hm g hg).2.2 o ho))
        (fun g hg => by have := (hm g hg).2.1; omega)
      have hnl : ns.length ≤ mx := by
        rw [i2, leafGroups_length]
        have := (Nat.div_lt_iff_lt_mul hmn).2 hlen
        omega
      have hlv : ∀ fuel next, levelsLoop mx fuel next ns = some (next, ns) := by
        intro fuel next
        cases fuel with
        | zero => rfl
        | succ f => rw [levelsLoop, if_neg (by omega)]
      rw [i1] at h1
      simp only [Option.bind_some, hlv] at h1
      have hleaf : ∀ m ∈ ns, fanOk mn mx m = true := by
        have : ∀ (gs : List (List Box)) (l : List Node),
            List.Forall₂ (fun g n => n.ch = [] ∧ n.obs = g) gs l →
            ∀ n ∈ l, n.ch = [] ∧ n.obs ∈ gs := by
          intro gs l hf
          induction hf with
          | nil => simp
          | cons h1 _ ih =>
            intro n hn
            rcases List.mem_cons.1 hn with rfl | hn
            · simp [h1]
            · have := ih n hn
              exact ⟨this.1, List.mem_cons_of_mem _ this.2⟩
        intro m hmem
        obtain ⟨e1, e2⟩ := this _ _ i4 m hmem
        have := hm _ e2
        cases m with
        | mk i b ch obs =>
          simp only [Node.ch] at e1
          subst e1
          simp only [Node.obs] at this
          simp only [fanOk, fanOkL, Node.fanOut, Node.isLeaf, Node.ch, Node.obs,
            List.isEmpty_nil, if_true, Bool.and_true, Bool.and_eq_true, decide_eq_true_eq]
          omega
      match ns with
      | [] => simp at h1
      | [m] =>
        exfalso
        simp only [Option.some.injEq, Prod.mk.injEq] at h1
        obtain ⟨_, rfl⟩ := h1
        rw [leafGroups_length] at i2
        simp only [List.length_singleton] at i2
        have : 2 ≤ objs.length / mn := (Nat.le_div_iff_mul_le hmn).2 (by omega)
        omega
      | a :: b :: rest =>
        simp only at h1
        cases hmk : mkNode (a :: b :: rest).length (a :: b :: rest) [] with
        | none => rw [hmk] at h1; simp at h1
        | some r =>
          rw [hmk] at h1
          simp only [Option.bind_some, Option.some.injEq, Prod.mk.injEq] at h1
          obtain ⟨_, rfl⟩ := h1
          unfold mkNode at hmk
          simp only [Option.map_eq_some_iff] at hmk
          obtain ⟨bx, _, rfl⟩ := hmk
          exact hleaf c hc
    · rw [if_neg hl] at h1
      obtain ⟨ns, i1, i2, i3, i4⟩ := leafLevel_spec (k := k) (mx := mx) [objs]
        (by simpa using hne) (by simpa using hr) (by simp; omega)
      rw [i1] at h1
      have hlv : ∀ fuel next, levelsLoop mx fuel next ns = some (next, ns) := by
        intro fuel next
        cases fuel with
        | zero => rfl
        | succ f => rw [levelsLoop, if_neg (by rw [i2]; simp; omega)]
      simp only [Option.bind_some, hlv] at h1
      match ns with
      | [] => simp at i2
      | [m] =>
        simp only [Option.some.injEq, Prod.mk.injEq] at h1
        obtain ⟨_, rfl⟩ := h1
        obtain ⟨e1, _⟩ := List.forall₂_cons.1 i4
        rw [e1.1] at hc
        simp at hc
      | a :: b :: rest => simp at i2

-- The default parameters are admissible, and 30 objects give a valid tree with 7 leaves.
example : 0 < 4 ∧ 2 * 4 ≤ 16 ∧ 4 * 4 ≤ 16 + 1 + 4 := by decide
example : (setFromObjects 4 16 ((List.range 30).map fun i => [⟨2 * i, 2 * i + 1⟩])).map
    (fun r => (r.2.ch.length, isValid 4 16 r.2)) = some (7, true) := by decide +kernel

end Marco.Props
