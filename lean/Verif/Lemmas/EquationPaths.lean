import Verif.Lemmas.EquationAccesses

/-!
# Helper lemmas for C103: the paths of the accesses
-/

namespace Marco.EqAcc
open Marco Spec Marco.Spec.EqAcc

theorem getAccess_path {S : Simplifier} {inds : List Nat} {v : Nat} {shape : List Nat} {ds : List DimAccess}
    {path : List Nat} {as : List Access} (h : getAccess S inds v shape ds path = .ok as) :
    ∃ a, as = [a] ∧ a.path = path ∧ a.var = v := by
  simp only [getAccess] at h
  split_ifs at h
  cases h
  exact ⟨_, rfl, rfl, rfl⟩

mutual
/-- The paths are different and start with the one of the value. -/
theorem accesses_paths {S : Simplifier} {inds : List Nat} : ∀ (e : Exp) {ad : Added} {ds : List DimAccess} {path : List Nat}
    {as : List Access}, accesses S inds e ad ds path = .ok as → (as.map (·.path)).Nodup ∧ ∀ a ∈ as, path <+: a.path
  | .arg _, _, _, _, _, h => by cases h; simp
  | .cst _, _, _, _, _, h => by cases h; simp
  | .rng .., _, _, _, _, h => by cases h; simp
  | .rrng .., _, _, _, _, h => by cases h; simp
  | .gget, _, _, _, _, h => by cases h; simp
  | .neg e, _, _, path, as, h => by
    obtain ⟨h1, h2⟩ := accesses_paths e h
    exact ⟨h1, fun a ha => (List.prefix_append _ _).trans (h2 a ha)⟩
  | .bin o l r, _, _, path, as, h => by
    simp only [accesses] at h
    obtain ⟨la, hla, h⟩ := except_bind h
    obtain ⟨ra, hra, h⟩ := except_bind h
    cases h
    obtain ⟨h1, h2⟩ := accesses_paths l hla
    obtain ⟨i1, i2⟩ := accesses_paths r hra
    refine ⟨?_, ?_⟩
    · rw [List.map_append, List.nodup_append]
      refine ⟨h1, i1, ?_⟩
      intro x hx y hy hxy
      subst hxy
      obtain ⟨a, ha, rfl⟩ := List.mem_map.1 hx
      obtain ⟨b, hb, hab⟩ := List.mem_map.1 hy
      obtain ⟨u, hu⟩ := h2 a ha
      obtain ⟨w, hw⟩ := i2 b hb
      rw [hab, ← hu] at hw
      simp at hw
    · intro a ha
      rcases List.mem_append.1 ha with ha | ha
      · exact (List.prefix_append _ _).trans (h2 a ha)
      · exact (List.prefix_append _ _).trans (i2 a ha)
  | .op args, _, _, path, as, h => by
    obtain ⟨h1, h2⟩ := accessesL_paths args h
    refine ⟨h1, fun a ha => ?_⟩
    obtain ⟨k, -, hk⟩ := h2 a ha
    exact (List.prefix_append _ _).trans hk
  | .get .., _, _, path, as, h => by
    obtain ⟨a, rfl, rfl, hv⟩ := getAccess_path h
    simp
  | .sub src idx, ad, ds, path, as, h => by
    rw [accesses] at h
    obtain ⟨es, hes, h⟩ := except_bind h
    have h' : accesses S inds src ad (ds ++ es) path = .ok as := by
      split at h
      · cases h
      · exact h
    exact accesses_paths src h'
  | .cast src, _, _, path, as, h => by
    obtain ⟨h1, h2⟩ := accesses_paths src h
    exact ⟨h1, fun a ha => (List.prefix_append _ _).trans (h2 a ha)⟩
  | .red _ _ body, _, _, path, as, h => by
    simp only [accesses] at h
    obtain ⟨ad', -, h⟩ := except_bind h
    obtain ⟨h1, h2⟩ := accessesL_paths body h
    refine ⟨h1, fun a ha => ?_⟩
    obtain ⟨k, -, hk⟩ := h2 a ha
    exact (List.prefix_append _ _).trans hk
termination_by e => sizeOf e
/-- The same for the operands. -/
theorem accessesL_paths {S : Simplifier} {inds : List Nat} : ∀ (es : List Exp) {ad : Added} {path : List Nat} {i : Nat}
    {as : List Access}, accessesL S inds es ad path i = .ok as →
    (as.map (·.path)).Nodup ∧ ∀ a ∈ as, ∃ k, i ≤ k ∧ path ++ [k] <+: a.path
  | [], _, _, _, _, h => by cases h; simp
  | e :: es, _, path, i, as, h => by
    rw [accessesL] at h
    obtain ⟨la, hla, h⟩ := except_bind h
    obtain ⟨ra, hra, h⟩ := except_bind h
    cases h
    obtain ⟨h1, h2⟩ := accesses_paths e hla
    obtain ⟨i1, i2⟩ := accessesL_paths es hra
    refine ⟨?_, ?_⟩
    · rw [List.map_append, List.nodup_append]
      refine ⟨h1, i1, ?_⟩
      intro x hx y hy hxy
      subst hxy
      obtain ⟨a, ha, rfl⟩ := List.mem_map.1 hx
      obtain ⟨b, hb, hab⟩ := List.mem_map.1 hy
      obtain ⟨u, hu⟩ := h2 a ha
      obtain ⟨k, hk, w, hw⟩ := i2 b hb
      rw [hab, ← hu] at hw
      simp at hw
      omega
    · intro a ha
      rcases List.mem_append.1 ha with ha | ha
      · exact ⟨i, le_refl i, h2 a ha⟩
      · obtain ⟨k, hk, h⟩ := i2 a ha
        exact ⟨k, by omega, h⟩
termination_by es => sizeOf es
end

/-- Subscriptions of a variable have one access, with the path of the value. -/
theorem chain_access {S : Simplifier} {inds : List Nat} : ∀ (e : Exp) {ad : Added} {ds : List DimAccess} {path : List Nat}
    {as : List Access}, Chain e → accesses S inds e ad ds path = .ok as → ∃ a, as = [a] ∧ a.path = path ∧ root e = some a.var
  | .get .., _, _, _, _, _, h => by
    obtain ⟨a, h1, h2, h3⟩ := getAccess_path h
    exact ⟨a, h1, h2, by rw [root, h3]⟩
  | .sub src idx, ad, ds, path, as, hc, h => by
    rw [accesses] at h
    obtain ⟨es, hes, h⟩ := except_bind h
    have h' : accesses S inds src ad (ds ++ es) path = .ok as := by
      split at h
      · cases h
      · exact h
    exact chain_access src hc h'
  | .arg _, _, _, _, _, hc, _ => hc.elim
  | .cst _, _, _, _, _, hc, _ => hc.elim
  | .rng .., _, _, _, _, hc, _ => hc.elim
  | .rrng .., _, _, _, _, hc, _ => hc.elim
  | .gget, _, _, _, _, hc, _ => hc.elim
  | .neg _, _, _, _, _, hc, _ => hc.elim
  | .bin .., _, _, _, _, hc, _ => hc.elim
  | .op _, _, _, _, _, hc, _ => hc.elim
  | .cast _, _, _, _, _, hc, _ => hc.elim
  | .red .., _, _, _, _, hc, _ => hc.elim
termination_by e => sizeOf e

/-- The path leads to a value with this access only. -/
def Leads (S : Simplifier) (inds : List Nat) (e : Exp) (path : List Nat) (a : Access) : Prop :=
  ∃ rest e', a.path = path ++ rest ∧ valueAt e rest = some e' ∧ root e' = some a.var ∧ accesses S inds e' [] [] a.path = .ok [a]

theorem Leads.step {S : Simplifier} {inds : List Nat} {e c : Exp} {path : List Nat} {i : Nat} {a : Access}
    (h : Leads S inds c (path ++ [i]) a) (he : element e i = some c) : Leads S inds e path a := by
  obtain ⟨rest, e', h1, h2, h3⟩ := h
  exact ⟨i :: rest, e', by simpa using h1, by simp [valueAt, he, h2], h3⟩

mutual
/-- The path of an access leads to it. -/
theorem accesses_lead {S : Simplifier} {inds : List Nat} : ∀ (e : Exp) {path : List Nat}
    {as : List Access}, Chained e → accesses S inds e [] [] path = .ok as → ∀ a ∈ as, Leads S inds e path a
  | .arg _, _, _, _, h => by cases h; simp
  | .cst _, _, _, _, h => by cases h; simp
  | .rng .., _, _, _, h => by cases h; simp
  | .rrng .., _, _, _, h => by cases h; simp
  | .gget, _, _, _, h => by cases h; simp
  | .neg e, path, as, hc, h => fun a ha => (accesses_lead e hc h a ha).step rfl
  | .bin o l r, path, as, hc, h => by
    simp only [accesses] at h
    obtain ⟨la, hla, h⟩ := except_bind h
    obtain ⟨ra, hra, h⟩ := except_bind h
    cases h
    intro a ha
    rcases List.mem_append.1 ha with ha | ha
    · exact (accesses_lead l hc.1 hla a ha).step rfl
    · exact (accesses_lead r hc.2 hra a ha).step rfl
  | .op args, path, as, hc, h => by
    intro a ha
    obtain ⟨k, c, hk, hl⟩ := accessesL_lead args hc h a ha
    exact hl.step (by simpa [element] using hk)
  | .get v shape, path, as, hc, h => by
    obtain ⟨a, rfl, rfl, hv⟩ := getAccess_path h
    intro b hb
    rw [List.mem_singleton] at hb
    subst hb
    exact ⟨[], _, by simp, rfl, by rw [root, hv], h⟩
  | .sub src idx, path, as, hc, h => by
    obtain ⟨a, rfl, rfl, hv⟩ := chain_access (.sub src idx) hc h
    intro b hb
    rw [List.mem_singleton] at hb
    subst hb
    exact ⟨[], _, by simp, rfl, hv, h⟩
  | .cast src, path, as, hc, h => fun a ha => (accesses_lead src hc h a ha).step rfl
  | .red .., _, _, hc, _ => hc.elim
termination_by e => sizeOf e
/-- The same for the operands. -/
theorem accessesL_lead {S : Simplifier} {inds : List Nat} : ∀ (es : List Exp) {path : List Nat} {i : Nat}
    {as : List Access}, ChainedL es → accessesL S inds es [] path i = .ok as → ∀ a ∈ as, ∃ k c, es[k]? = some c ∧
    Leads S inds c (path ++ [i + k]) a
  | [], _, _, _, _, h => by cases h; simp
  | e :: es, path, i, as, hc, h => by
    rw [accessesL] at h
    obtain ⟨la, hla, h⟩ := except_bind h
    obtain ⟨ra, hra, h⟩ := except_bind h
    cases h
    intro a ha
    rcases List.mem_append.1 ha with ha | ha
    · exact ⟨0, e, rfl, accesses_lead e hc.1 hla a ha⟩
    · obtain ⟨k, c, hk, h⟩ := accessesL_lead es hc.2 hra a ha
      exact ⟨k + 1, c, by simpa using hk, by rw [show i + (k + 1) = i + 1 + k by omega]; exact h⟩
termination_by es => sizeOf es
end

/-- At each prefix of the path of an access there is a value with this access. -/
def Below (S : Simplifier) (inds : List Nat) (e : Exp) (path : List Nat) (a : Access) : Prop :=
  ∀ r, path ++ r <+: a.path → ∃ e' as', valueAt e r = some e' ∧ accesses S inds e' [] [] (path ++ r) = .ok as' ∧ a ∈ as'

theorem Below.step {S : Simplifier} {inds : List Nat} {e c : Exp} {path : List Nat} {i : Nat} {a : Access} {as : List Access}
    (h : Below S inds c (path ++ [i]) a) (hp : path ++ [i] <+: a.path) (he : element e i = some c)
    (has : accesses S inds e [] [] path = .ok as) (ha : a ∈ as) : Below S inds e path a := by
  intro r hr
  cases r with
  | nil => exact ⟨e, as, rfl, by simpa using has, ha⟩
  | cons i' r =>
    have hi : i' = i := by
      obtain ⟨u, hu⟩ := hp
      obtain ⟨w, hw⟩ := hr
      rw [← hu] at hw
      simp at hw
      exact hw.1
    subst hi
    obtain ⟨e', as', h1, h2, h3⟩ := h r (by simpa using hr)
    exact ⟨e', as', by simp [valueAt, he, h1], by simpa using h2, h3⟩

theorem Below.leaf {S : Simplifier} {inds : List Nat} {e : Exp} {path : List Nat} {a : Access} {as : List Access}
    (hp : a.path = path) (has : accesses S inds e [] [] path = .ok as) (ha : a ∈ as) : Below S inds e path a := by
  intro r hr
  rw [hp] at hr
  have : r = [] := by
    have := hr.length_le
    simp at this
    exact this
  subst this
  exact ⟨e, as, rfl, by simpa using has, ha⟩

mutual
theorem accesses_below {S : Simplifier} {inds : List Nat} : ∀ (e : Exp) {path : List Nat}
    {as : List Access}, Chained e → accesses S inds e [] [] path = .ok as → ∀ a ∈ as, Below S inds e path a
  | .arg _, _, _, _, h => by cases h; simp
  | .cst _, _, _, _, h => by cases h; simp
  | .rng .., _, _, _, h => by cases h; simp
  | .rrng .., _, _, _, h => by cases h; simp
  | .gget, _, _, _, h => by cases h; simp
  | .neg e, path, as, hc, h => fun a ha =>
    (accesses_below e hc h a ha).step ((accesses_paths e h).2 a ha) rfl h ha
  | .bin o l r, path, as, hc, h => by
    have h0 := h
    simp only [accesses] at h
    obtain ⟨la, hla, h⟩ := except_bind h
    obtain ⟨ra, hra, h⟩ := except_bind h
    cases h
    intro a ha
    have ha0 := ha
    rcases List.mem_append.1 ha with ha | ha
    · exact (accesses_below l hc.1 hla a ha).step ((accesses_paths l hla).2 a ha) rfl h0 ha0
    · exact (accesses_below r hc.2 hra a ha).step ((accesses_paths r hra).2 a ha) rfl h0 ha0
  | .op args, path, as, hc, h => by
    intro a ha
    obtain ⟨k, c, hk, hp, hl⟩ := accessesL_below args hc h a ha
    rw [Nat.zero_add] at hp hl
    exact hl.step hp (by simpa [element] using hk) h ha
  | .get v shape, path, as, hc, h => by
    obtain ⟨a, rfl, hp, hv⟩ := getAccess_path h
    intro b hb
    have hb0 := hb
    rw [List.mem_singleton] at hb
    subst hb
    exact .leaf hp h hb0
  | .sub src idx, path, as, hc, h => by
    obtain ⟨a, rfl, hp, hv⟩ := chain_access (.sub src idx) hc h
    intro b hb
    have hb0 := hb
    rw [List.mem_singleton] at hb
    subst hb
    exact .leaf hp h hb0
  | .cast src, path, as, hc, h => fun a ha =>
    (accesses_below src hc h a ha).step ((accesses_paths src h).2 a ha) rfl h ha
  | .red .., _, _, hc, _ => hc.elim
termination_by e => sizeOf e
theorem accessesL_below {S : Simplifier} {inds : List Nat} : ∀ (es : List Exp) {path : List Nat} {i : Nat}
    {as : List Access}, ChainedL es → accessesL S inds es [] path i = .ok as → ∀ a ∈ as, ∃ k c, es[k]? = some c ∧
    path ++ [i + k] <+: a.path ∧ Below S inds c (path ++ [i + k]) a
  | [], _, _, _, _, h => by cases h; simp
  | e :: es, path, i, as, hc, h => by
    rw [accessesL] at h
    obtain ⟨la, hla, h⟩ := except_bind h
    obtain ⟨ra, hra, h⟩ := except_bind h
    cases h
    intro a ha
    rcases List.mem_append.1 ha with ha | ha
    · exact ⟨0, e, rfl, (accesses_paths e hla).2 a ha, accesses_below e hc.1 hla a ha⟩
    · obtain ⟨k, c, hk, h⟩ := accessesL_below es hc.2 hra a ha
      exact ⟨k + 1, c, by simpa using hk, by rw [show i + (k + 1) = i + 1 + k by omega]; exact h⟩
termination_by es => sizeOf es
end

end Marco.EqAcc
