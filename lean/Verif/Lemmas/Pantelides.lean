import Verif.Spec.Pantelides
import Mathlib.Tactic.Tauto

/-! # Lemmas about the recorded derivatives -/

namespace Marco.Props
open Marco Spec Pantelides

/-! ### The maps of the derivatives -/

theorem derAdd_keys (m : DerMap) (v d : Nat) (I : Finset Point) (x : Nat) :
    x ∈ (m.add v d I).map Prod.fst ↔ x ∈ m.map Prod.fst ∨ x = v := by
  induction m with
  | nil => simp [DerMap.add]
  | cons e m ih =>
    obtain ⟨v', d', J⟩ := e
    simp only [DerMap.add]
    split
    · rename_i h
      subst h
      simp only [List.map_cons, List.mem_cons]
      tauto
    · simp only [List.map_cons, List.mem_cons, ih]
      tauto

theorem derAdd_nodup {m : DerMap} (h : (m.map Prod.fst).Nodup) (v d : Nat) (I : Finset Point) :
    ((m.add v d I).map Prod.fst).Nodup := by
  induction m with
  | nil => simp [DerMap.add]
  | cons e m ih =>
    obtain ⟨v', d', J⟩ := e
    rw [List.map_cons, List.nodup_cons] at h
    simp only [DerMap.add]
    split
    · rw [List.map_cons, List.nodup_cons]; exact h
    · rename_i hne
      rw [List.map_cons, List.nodup_cons, derAdd_keys]
      exact ⟨fun hc => hc.elim h.1 hne, ih h.2⟩

/-- What is in the map after an update. -/
theorem mem_derAdd {m : DerMap} {v d : Nat} {I : Finset Point} {a b : Nat} {K : Finset Point}
    (h : (a, b, K) ∈ m.add v d I) :
    (∃ J, (a, b, J) ∈ m ∧ J ⊆ K) ∨ (a = v ∧ b = d ∧ K = I) := by
  induction m with
  | nil =>
    simp only [DerMap.add, List.mem_singleton, Prod.mk.injEq] at h
    exact Or.inr h
  | cons e m ih =>
    obtain ⟨v', d', J⟩ := e
    simp only [DerMap.add] at h
    split at h
    · rcases List.mem_cons.1 h with h | h
      · simp only [Prod.mk.injEq] at h
        obtain ⟨rfl, rfl, rfl⟩ := h
        exact Or.inl ⟨J, List.mem_cons_self .., Finset.subset_union_left⟩
      · exact Or.inl ⟨K, List.mem_cons_of_mem _ h, subset_rfl⟩
    · rcases List.mem_cons.1 h with h | h
      · simp only [Prod.mk.injEq] at h
        obtain ⟨rfl, rfl, rfl⟩ := h
        exact Or.inl ⟨_, List.mem_cons_self .., subset_rfl⟩
      · rcases ih h with ⟨L, hL, hs⟩ | h
        · exact Or.inl ⟨L, List.mem_cons_of_mem _ hL, hs⟩
        · exact Or.inr h

/-- Entries stay, with more indices. -/
theorem derAdd_stays {m : DerMap} {a b : Nat} {K : Finset Point} (h : (a, b, K) ∈ m)
    (v d : Nat) (I : Finset Point) : ∃ L, (a, b, L) ∈ m.add v d I ∧ K ⊆ L := by
  induction m with
  | nil => cases h
  | cons e m ih =>
    obtain ⟨v', d', J⟩ := e
    simp only [DerMap.add]
    rcases List.mem_cons.1 h with h | h
    · simp only [Prod.mk.injEq] at h
      obtain ⟨rfl, rfl, rfl⟩ := h
      split
      · exact ⟨_, List.mem_cons_self .., Finset.subset_union_left⟩
      · exact ⟨_, List.mem_cons_self .., subset_rfl⟩
    · split
      · exact ⟨K, List.mem_cons_of_mem _ h, subset_rfl⟩
      · obtain ⟨L, hL, hs⟩ := ih h
        exact ⟨L, List.mem_cons_of_mem _ hL, hs⟩

theorem oneDerivative_of_nodup {m : DerMap} (h : (m.map Prod.fst).Nodup) : OneDerivative m := by
  rintro a i d d' ⟨I, h1, -⟩ ⟨J, h2, -⟩
  have := List.inj_on_of_nodup_map h h1 h2 rfl
  simp only [Prod.mk.injEq, true_and] at this
  exact this.1

/-! ### Names -/

/-- A new name without a derivative does not close a cycle. -/
theorem noCycle_extend {names : Nat → Option Nat} {next v : Nat}
    (hb : ∀ v d, names v = some d → v < next ∧ d < next) (hac : NoCycle fun v d => names v = some d)
    (hv : v < next) :
    NoCycle fun w d => (if w = v then some next else names w) = some d := by
  have hlast : ∀ d, ¬ (if next = v then some next else names next) = some d := by
    intro d hd
    rw [if_neg (by omega)] at hd
    have := (hb _ _ hd).1
    omega
  have key : ∀ x y, Relation.TransGen
      (fun w d => (if w = v then some next else names w) = some d) x y →
      y = next ∨ Relation.TransGen (fun v d => names v = some d) x y := by
    intro x y h
    have one : ∀ b c, (if b = v then some next else names b) = some c →
        c = next ∨ names b = some c := by
      intro b c hbc
      split at hbc
      · left; exact (Option.some.inj hbc).symm
      · right; exact hbc
    induction h with
    | single h =>
      rcases one _ _ h with h | h
      · exact Or.inl h
      · exact Or.inr (.single h)
    | tail _ h ih =>
      rcases ih with ih | ih
      · subst ih
        exact absurd h (hlast _)
      · rcases one _ _ h with h | h
        · exact Or.inl h
        · exact Or.inr (ih.tail h)
  intro x hx
  rcases key x x hx with h | h
  · subst h
    rcases Relation.TransGen.head'_iff.1 hx with ⟨c, hc, -⟩
    exact hlast c hc
  · exact hac x h

/-! ### Variables -/

/-- The invariant, for the variables owning the addresses. -/
structure VInv (owner : Nat → Option Nat) (s : VState) : Prop where
  verts : ∀ x ∈ s.verts, owner x.addr = some x.id ∧ x.id < s.next
  der : ∀ a d I, (a, d, I) ∈ s.der → ∃ v w, owner a = some v ∧ owner d = some w ∧
    s.names v = some w
  bound : ∀ v d, s.names v = some d → v < s.next ∧ d < s.next
  acyclic : NoCycle fun v d => s.names v = some d

theorem VInv.noCycle {owner : Nat → Option Nat} {s : VState} (h : VInv owner s) :
    NoCycle (HasDer s.der) := by
  have key : ∀ a b, Relation.TransGen (HasDer s.der) a b → ∃ v w, owner a = some v ∧
      owner b = some w ∧ Relation.TransGen (fun v d => s.names v = some d) v w := by
    intro a b hab
    induction hab with
    | single h1 =>
      obtain ⟨i, I, h1, -⟩ := h1
      obtain ⟨v, w, hv, hw, hn⟩ := h.der _ _ _ h1
      exact ⟨v, w, hv, hw, .single hn⟩
    | tail _ h1 ih =>
      obtain ⟨v, w, hv, hw, ht⟩ := ih
      obtain ⟨i, I, h1, -⟩ := h1
      obtain ⟨v', w', hv', hw', hn⟩ := h.der _ _ _ h1
      rw [hw] at hv'
      obtain rfl := Option.some.inj hv'
      exact ⟨v, w', hv, hw', ht.tail hn⟩
  intro a ha
  obtain ⟨v, w, hv, hw, ht⟩ := key a a ha
  rw [hv] at hw
  obtain rfl := Option.some.inj hw
  exact h.acyclic v ht

theorem vertex_mem {s : VState} {a : Nat} {x : VVertex} (h : s.vertex a = some x) :
    x ∈ s.verts ∧ x.addr = a := by
  have := List.find?_some h
  exact ⟨List.mem_of_find?_eq_some h, by simpa using this⟩

theorem find_mem {s : VState} {v b : Nat} (h : s.find v = some b) :
    ∃ x ∈ s.verts, x.id = v ∧ x.addr = b := by
  simp only [VState.find, Option.map_eq_some_iff] at h
  obtain ⟨x, hx, rfl⟩ := h
  have := List.find?_some hx
  exact ⟨x, List.mem_of_find?_eq_some hx, by simpa using this, rfl⟩

/-- What `addVariableDerivative` does to the state. -/
theorem addVariableDerivative_cases {s s' : VState} {a d : Nat} {I : Finset Point}
    (h : addVariableDerivative s a d I = some s') :
    s'.names = s.names ∧ s'.next = s.next ∧
    (∀ y ∈ s'.verts, ∃ z ∈ s.verts, z.addr = y.addr ∧ z.id = y.id) ∧
    (s'.der = s.der ∨ s'.der = s.der.add a d I) := by
  simp only [addVariableDerivative, Option.map_eq_some_iff] at h
  obtain ⟨x, hx, rfl⟩ := h
  split
  · refine ⟨rfl, rfl, ?_, Or.inl rfl⟩
    intro y hy
    exact ⟨y, (List.mem_filter.1 hy).1, rfl, rfl⟩
  · refine ⟨rfl, rfl, ?_, Or.inr rfl⟩
    intro y hy
    obtain ⟨z, hz, rfl⟩ := List.mem_map.1 hy
    refine ⟨z, hz, ?_⟩
    split <;> exact ⟨rfl, rfl⟩

theorem VInv.add {owner : Nat → Option Nat} {s s' : VState} (hi : VInv owner s) {a d v w : Nat}
    {I : Finset Point} (ha : owner a = some v) (hd : owner d = some w) (hn : s.names v = some w)
    (h : addVariableDerivative s a d I = some s') : VInv owner s' := by
  obtain ⟨h1, h2, h3, h4⟩ := addVariableDerivative_cases h
  refine ⟨?_, ?_, by rw [h1, h2]; exact hi.bound, by rw [h1]; exact hi.acyclic⟩
  · intro y hy
    obtain ⟨z, hz, e1, e2⟩ := h3 y hy
    rw [← e1, ← e2, h2]
    exact hi.verts z hz
  · intro a' d' J hm
    rw [h1]
    rcases h4 with h4 | h4
    · rw [h4] at hm
      exact hi.der a' d' J hm
    · rw [h4] at hm
      rcases mem_derAdd hm with ⟨K, hK, -⟩ | ⟨rfl, rfl, rfl⟩
      · exact hi.der a' d' K hK
      · exact ⟨v, w, ha, hd, hn⟩

/-- What `derivativeOf` does to the state. -/
theorem derivativeOf_spec {owner : Nat → Option Nat} {s : VState} (hi : VInv owner s) {v : Nat}
    (hv : v < s.next) : VInv owner (derivativeOf s v).2 ∧
      (derivativeOf s v).2.names v = some (derivativeOf s v).1 ∧
      (∀ w d, s.names w = some d → (derivativeOf s v).2.names w = some d) ∧
      (derivativeOf s v).1 < (derivativeOf s v).2.next ∧
      (derivativeOf s v).2.verts = s.verts ∧ (derivativeOf s v).2.der = s.der := by
  cases hn : s.names v with
  | some d =>
    simp only [derivativeOf, hn]
    exact ⟨hi, trivial, fun _ _ h => h, (hi.bound _ _ hn).2, trivial, trivial⟩
  | none =>
    simp only [derivativeOf, hn]
    have hstay : ∀ w d, s.names w = some d →
        (if w = v then some s.next else s.names w) = some d := by
      intro w d hw
      rw [if_neg (by rintro rfl; rw [hn] at hw; cases hw)]
      exact hw
    refine ⟨⟨?_, ?_, ?_, noCycle_extend hi.bound hi.acyclic hv⟩, by simp, hstay, by simp, trivial, trivial⟩
    · intro x hx
      exact ⟨(hi.verts x hx).1, Nat.lt_succ_of_lt (hi.verts x hx).2⟩
    · intro a d I hm
      obtain ⟨v', w, h1, h2, h3⟩ := hi.der a d I hm
      exact ⟨v', w, h1, h2, hstay _ _ h3⟩
    · intro w d hw
      dsimp only at hw ⊢
      split at hw
      · rename_i h
        subst h
        have := Option.some.inj hw
        omega
      · have := hi.bound _ _ hw
        omega

/-- One request. -/
theorem VInv.step {owner : Nat → Option Nat} {s s' : VState} (hi : VInv owner s) {r : Req}
    (hk : ∀ v d I, r = .known v d I → s.names v = some d)
    (hf : ∀ a I addr, r = .diff a I addr → owner addr = none) (h : s.step r = some s') :
    (∀ w d, s.names w = some d → s'.names w = some d) ∧
    ∃ owner', VInv owner' s' ∧ ∀ b, b ∉ addresses [r] → owner' b = owner b := by
  cases r with
  | known v d I =>
    have hvd := hk v d I rfl
    simp only [VState.step, addKnown] at h
    split at h
    · rename_i a b ha hb
      obtain ⟨x, hx, e1, e2⟩ := find_mem ha
      obtain ⟨y, hy, e3, e4⟩ := find_mem hb
      have o1 := (hi.verts x hx).1
      have o2 := (hi.verts y hy).1
      rw [e2, e1] at o1
      rw [e4, e3] at o2
      exact ⟨by rw [(addVariableDerivative_cases h).1]; exact fun _ _ h => h, owner,
        hi.add o1 o2 hvd h, fun _ _ => rfl⟩
    · obtain rfl := Option.some.inj h
      exact ⟨fun _ _ h => h, owner, hi, fun _ _ => rfl⟩
  | diff a I addr =>
    have hfree := hf a I addr rfl
    simp only [VState.step, differentiateVariable, Option.bind_eq_some_iff] at h
    obtain ⟨x, hx, h⟩ := h
    obtain ⟨hxm, hxa⟩ := vertex_mem hx
    obtain ⟨hxo, hxn⟩ := hi.verts x hxm
    rw [hxa] at hxo
    split at h
    · obtain rfl := Option.some.inj h
      exact ⟨fun _ _ h => h, owner, hi, fun _ _ => rfl⟩
    · obtain ⟨i1, i2, i3, i4, i5, i6⟩ := derivativeOf_spec hi hxn
      rw [Option.bind_eq_some_iff] at h
      obtain ⟨⟨b, s2⟩, hv, h⟩ := h
      simp only [vertexFor] at hv
      split at hv
      · rename_i b' hb
        simp only [Option.some.injEq, Prod.mk.injEq] at hv
        obtain ⟨rfl, rfl⟩ := hv
        obtain ⟨y, hy, e1, e2⟩ := find_mem hb
        have o := (i1.verts y hy).1
        rw [e1, e2] at o
        refine ⟨?_, owner, i1.add hxo o i2 h, fun _ _ => rfl⟩
        rw [(addVariableDerivative_cases h).1]
        exact i3
      · split at hv
        · cases hv
        · simp only [Option.some.injEq, Prod.mk.injEq] at hv
          obtain ⟨rfl, rfl⟩ := hv
          have hne : ∀ c e, owner c = some e → c ≠ addr := by
            rintro c e hc rfl
            rw [hfree] at hc
            cases hc
          let owner' : Nat → Option Nat :=
            fun c => if c = addr then some (derivativeOf s x.id).1 else owner c
          have ho : ∀ c e, owner c = some e → owner' c = some e := by
            intro c e hc
            simp only [owner', if_neg (hne c e hc), hc]
          refine ⟨?_, owner', ?_, ?_⟩
          · rw [(addVariableDerivative_cases h).1]
            exact i3
          · refine VInv.add (s := { (derivativeOf s x.id).2 with
                verts := ⟨addr, (derivativeOf s x.id).1,
                  (derivativeOf s x.id).2.shape (derivativeOf s x.id).1⟩ ::
                  (derivativeOf s x.id).2.verts }) (d := addr) (v := x.id)
              (w := (derivativeOf s x.id).1) ⟨?_, ?_, i1.bound, i1.acyclic⟩
              (ho _ _ hxo) (by simp [owner']) i2 h
            · intro y hy
              rcases List.mem_cons.1 hy with rfl | hy
              · exact ⟨by simp [owner'], i4⟩
              · exact ⟨ho _ _ (i1.verts y hy).1, (i1.verts y hy).2⟩
            · intro a' d' J hm
              obtain ⟨v, w, h1, h2, h3⟩ := i1.der a' d' J hm
              exact ⟨v, w, ho _ _ h1, ho _ _ h2, h3⟩
          · intro c hc
            simp only [addresses, List.mem_singleton] at hc
            simp only [owner', if_neg hc]

/-- All requests. -/
theorem VInv.run {owner : Nat → Option Nat} {s s' : VState} (hi : VInv owner s) {rs : List Req}
    (hk : KnownOk s rs) (hnd : (addresses rs).Nodup) (hf : ∀ b ∈ addresses rs, owner b = none)
    (h : s.run rs = some s') : ∃ owner', VInv owner' s' := by
  induction rs generalizing s owner with
  | nil =>
    obtain rfl := Option.some.inj h
    exact ⟨owner, hi⟩
  | cons r rs ih =>
    simp only [VState.run, Option.bind_eq_some_iff] at h
    obtain ⟨s1, h1, h⟩ := h
    have hadr : addresses (r :: rs) = addresses [r] ++ addresses rs := by
      cases r <;> rfl
    rw [hadr] at hnd hf
    have hnd' := List.nodup_append.1 hnd
    obtain ⟨n1, owner', i1, i2⟩ := hi.step (r := r)
      (by rintro v d I rfl; exact hk v d I (List.mem_cons_self ..))
      (by
        rintro a I addr rfl
        exact hf addr (by simp [addresses])) h1
    refine ih i1 (fun v d I hm => n1 _ _ (hk v d I (List.mem_cons_of_mem _ hm))) hnd'.2.1 ?_ h
    intro b hb
    rw [i2 b (fun hc => hnd'.2.2 b hc b hb rfl)]
    exact hf b (List.mem_append_right _ hb)

/-- Whatever the addresses, a request only adds to the recorded derivatives. -/
theorem step_der {s s' : VState} {r : Req} (h : s.step r = some s') :
    s'.der = s.der ∨ ∃ a d I, s'.der = s.der.add a d I := by
  cases r with
  | known v d I =>
    simp only [VState.step, addKnown] at h
    split at h
    · rcases (addVariableDerivative_cases h).2.2.2 with h | h
      · exact Or.inl h
      · exact Or.inr ⟨_, _, _, h⟩
    · obtain rfl := Option.some.inj h
      exact Or.inl rfl
  | diff a I addr =>
    simp only [VState.step, differentiateVariable, Option.bind_eq_some_iff] at h
    obtain ⟨x, hx, h⟩ := h
    split at h
    · obtain rfl := Option.some.inj h
      exact Or.inl rfl
    · have hd : (derivativeOf s x.id).2.der = s.der := by
        simp only [derivativeOf]
        split <;> rfl
      rw [Option.bind_eq_some_iff] at h
      obtain ⟨⟨b, s2⟩, hv, h⟩ := h
      have hs2 : s2.der = s.der := by
        simp only [vertexFor] at hv
        split at hv
        · simp only [Option.some.injEq, Prod.mk.injEq] at hv
          rw [← hv.2, hd]
        · split at hv
          · cases hv
          · simp only [Option.some.injEq, Prod.mk.injEq] at hv
            rw [← hv.2]
            exact hd
      rcases (addVariableDerivative_cases h).2.2.2 with h | h
      · exact Or.inl (h.trans hs2)
      · exact Or.inr ⟨_, _, _, by rw [h, hs2]⟩

/-! ### Equations -/

/-- The invariant for equations: every vertex that has been created is still there. -/
structure EInv (s : EState) : Prop where
  addrs : (s.verts.map Prod.fst).Nodup
  verts : ∀ x ∈ s.verts, x.2 < s.next
  keys : (s.der.map Prod.fst).Nodup
  der : ∀ a d I, (a, d, I) ∈ s.der → ∃ v w, (a, v) ∈ s.verts ∧ (d, w) ∈ s.verts ∧
    s.names v = some w
  bound : ∀ v d, s.names v = some d → v < s.next ∧ d < s.next
  acyclic : NoCycle fun v d => s.names v = some d

theorem EInv.noCycle {s : EState} (h : EInv s) : NoCycle (HasDer s.der) := by
  have key : ∀ a b, Relation.TransGen (HasDer s.der) a b → ∃ v w, (a, v) ∈ s.verts ∧
      (b, w) ∈ s.verts ∧ Relation.TransGen (fun v d => s.names v = some d) v w := by
    intro a b hab
    induction hab with
    | single h1 =>
      obtain ⟨i, I, h1, -⟩ := h1
      obtain ⟨v, w, hv, hw, hn⟩ := h.der _ _ _ h1
      exact ⟨v, w, hv, hw, .single hn⟩
    | tail _ h1 ih =>
      obtain ⟨v, w, hv, hw, ht⟩ := ih
      obtain ⟨i, I, h1, -⟩ := h1
      obtain ⟨v', w', hv', hw', hn⟩ := h.der _ _ _ h1
      have e := List.inj_on_of_nodup_map h.addrs hw hv' rfl
      simp only [Prod.mk.injEq, true_and] at e
      subst e
      exact ⟨v, w', hv, hw', ht.tail hn⟩
  intro a ha
  obtain ⟨v, w, hv, hw, ht⟩ := key a a ha
  have e := List.inj_on_of_nodup_map h.addrs hv hw rfl
  simp only [Prod.mk.injEq, true_and] at e
  subst e
  exact h.acyclic v ht

theorem ederivativeOf_spec {s : EState} (hi : EInv s) {v : Nat} (hv : v < s.next) :
    EInv (s.derivativeOf v).2 ∧ (s.derivativeOf v).2.names v = some (s.derivativeOf v).1 ∧
      (s.derivativeOf v).1 < (s.derivativeOf v).2.next ∧
      (s.derivativeOf v).2.verts = s.verts ∧ (s.derivativeOf v).2.der = s.der := by
  cases hn : s.names v with
  | some d =>
    simp only [EState.derivativeOf, hn]
    exact ⟨hi, trivial, (hi.bound _ _ hn).2, trivial, trivial⟩
  | none =>
    simp only [EState.derivativeOf, hn]
    have hstay : ∀ w d, s.names w = some d →
        (if w = v then some s.next else s.names w) = some d := by
      intro w d hw
      rw [if_neg (by rintro rfl; rw [hn] at hw; cases hw)]
      exact hw
    refine ⟨⟨hi.addrs, ?_, hi.keys, ?_, ?_, noCycle_extend hi.bound hi.acyclic hv⟩, by simp,
      by simp, trivial, trivial⟩
    · intro x hx
      exact Nat.lt_succ_of_lt (hi.verts x hx)
    · intro a d I hm
      obtain ⟨v', w, h1, h2, h3⟩ := hi.der a d I hm
      exact ⟨v', w, h1, h2, hstay _ _ h3⟩
    · intro w d hw
      dsimp only at hw ⊢
      split at hw
      · rename_i h
        subst h
        have := Option.some.inj hw
        omega
      · have := hi.bound _ _ hw
        omega

theorem EInv.add {s : EState} (hi : EInv s) {a b v w : Nat} (ha : (a, v) ∈ s.verts)
    (hb : (b, w) ∈ s.verts) (hn : s.names v = some w) (I : Finset Point) :
    EInv { s with der := s.der.add a b I } := by
  refine ⟨hi.addrs, hi.verts, derAdd_nodup hi.keys _ _ _, ?_, hi.bound, hi.acyclic⟩
  intro a' d' J hm
  rcases mem_derAdd hm with ⟨K, hK, -⟩ | ⟨rfl, rfl, rfl⟩
  · exact hi.der a' d' K hK
  · exact ⟨v, w, ha, hb, hn⟩

theorem EInv.differentiate {s s' : EState} (hi : EInv s) {a : Nat} {I : Finset Point} {addr : Nat}
    (h : s.differentiate a I addr = some s') : EInv s' := by
  simp only [EState.differentiate, Option.bind_eq_some_iff] at h
  obtain ⟨⟨a', v⟩, hx, h⟩ := h
  have hxm := List.mem_of_find?_eq_some hx
  have hxa : a' = a := by simpa using List.find?_some hx
  subst hxa
  split at h
  · obtain rfl := Option.some.inj h
    exact hi
  · obtain ⟨i1, i2, i3, i4, i5⟩ := ederivativeOf_spec hi (hi.verts _ hxm)
    simp only [Option.map_eq_some_iff] at h
    obtain ⟨⟨b, s2⟩, hv, rfl⟩ := h
    simp only [EState.vertexFor] at hv
    split at hv
    · rename_i y hy
      simp only [Option.some.injEq, Prod.mk.injEq] at hv
      obtain ⟨rfl, rfl⟩ := hv
      have hym := List.mem_of_find?_eq_some hy
      have hyd : y.2 = (s.derivativeOf v).1 := by simpa using List.find?_some hy
      refine i1.add (v := v) (w := (s.derivativeOf v).1) (by rw [i4]; exact hxm) ?_ i2 _
      rw [← hyd]
      exact hym
    · split at hv
      · cases hv
      · rename_i hfree
        simp only [Option.some.injEq, Prod.mk.injEq] at hv
        obtain ⟨rfl, rfl⟩ := hv
        refine EInv.add (s := { (s.derivativeOf v).2 with
          verts := (addr, (s.derivativeOf v).1) :: (s.derivativeOf v).2.verts })
          (v := v) (w := (s.derivativeOf v).1) ⟨?_, ?_, i1.keys, ?_, i1.bound, i1.acyclic⟩
          (List.mem_cons_of_mem _ (by rw [i4]; exact hxm)) (List.mem_cons_self ..) i2 _
        · rw [List.map_cons, List.nodup_cons]
          refine ⟨?_, i1.addrs⟩
          intro hc
          obtain ⟨z, hz, hza⟩ := List.mem_map.1 hc
          apply hfree
          rw [List.any_eq_true]
          exact ⟨z, hz, by simpa using hza⟩
        · intro x hx
          rcases List.mem_cons.1 hx with rfl | hx
          · exact i3
          · exact i1.verts x hx
        · intro a1 d1 J hm
          obtain ⟨v1, w1, h1, h2, h3⟩ := i1.der a1 d1 J hm
          exact ⟨v1, w1, List.mem_cons_of_mem _ h1, List.mem_cons_of_mem _ h2, h3⟩

theorem EInv.run {s s' : EState} (hi : EInv s) {rs : List (Nat × Finset Point × Nat)}
    (h : s.run rs = some s') : EInv s' := by
  induction rs generalizing s with
  | nil =>
    obtain rfl := Option.some.inj h
    exact hi
  | cons r rs ih =>
    obtain ⟨a, I, addr⟩ := r
    simp only [EState.run, Option.bind_eq_some_iff] at h
    obtain ⟨s1, h1, h⟩ := h
    exact ih (hi.differentiate h1) h

end Marco.Props
