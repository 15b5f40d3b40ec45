import Verif.Spec.RawVariables

/-! # Lemmas on the variables of functions in memory -/

namespace Marco.RawVars
open Marco.Spec.RawVars (Val)

/-- The relation between the memory and the values. -/
structure Inv {V : Type} (s : State V) (t : Spec.RawVars.State V) : Prop where
  len : s.env.length = t.vars.length
  var : ∀ (x : Nat) ref, s.env[x]? = some ref → ∃ a, t.vars[x]? = some (ref.kind, a) ∧ s.load ref.buf = some a
  inj : ∀ (x y : Nat) r q, s.env[x]? = some r → s.env[y]? = some q → r.buf = q.buf → x = y
  vlen : s.regs.length = t.vals.length
  val : ∀ (r : Nat) b v, s.regs[r]? = some b → t.vals[r]? = some v → v.fresh = true →
    s.load b = some v.arr ∧ (∀ x, v.src = some x → ∃ ref, s.env[x]? = some ref ∧ ref.buf = b) ∧
    (v.src = none → ∀ (x : Nat) ref, s.env[x]? = some ref → ref.buf ≠ b)

theorem load_lt {V : Type} {s : State V} {b : Nat} {a : Arr V} (h : s.load b = some a) : b < s.mem.length := by
  simp only [State.load] at h
  refine Nat.lt_of_not_le fun hn => ?_
  rw [List.getElem?_eq_none hn] at h
  simp at h

theorem load_iff {V : Type} (s : State V) (b : Nat) (a : Arr V) : s.load b = some a ↔ s.mem[b]? = some (some a) := by
  simp only [State.load]
  cases s.mem[b]? <;> simp [Option.join]

/-- The corresponding variable in the other direction. -/
theorem Inv.ref {V : Type} {s : State V} {t : Spec.RawVars.State V} (h : Inv s t) {x : Nat} {k : Kind} {a : Arr V}
    (hx : t.vars[x]? = some (k, a)) : ∃ ref, s.env[x]? = some ref ∧ ref.kind = k ∧ s.load ref.buf = some a := by
  have hlt : x < s.env.length := by
    rw [h.len]
    exact (List.getElem?_eq_some_iff.1 hx).1
  obtain ⟨a', h1, h2⟩ := h.var x _ (List.getElem?_eq_getElem hlt)
  rw [hx] at h1
  simp only [Option.some.injEq, Prod.mk.injEq] at h1
  exact ⟨_, List.getElem?_eq_getElem hlt, h1.1.symm, h1.2 ▸ h2⟩

theorem Inv.reg {V : Type} {s : State V} {t : Spec.RawVars.State V} (h : Inv s t) {r : Nat} {v : Val V}
    (hr : t.vals[r]? = some v) (hf : v.fresh = true) : ∃ b, s.regs[r]? = some b ∧ s.load b = some v.arr := by
  have hlt : r < s.regs.length := by
    rw [h.vlen]
    exact (List.getElem?_eq_some_iff.1 hr).1
  exact ⟨_, List.getElem?_eq_getElem hlt, (h.val r _ v (List.getElem?_eq_getElem hlt) hr hf).1⟩

/-- The values that are still fresh after an assignment to `x` are not in the buffer of `x`. -/
theorem Inv.touched {V : Type} {s : State V} {t : Spec.RawVars.State V} (h : Inv s t) {x : Nat} {ref : Ref}
    (hx : s.env[x]? = some ref) {r b : Nat} {v : Val V} (hb : s.regs[r]? = some b)
    (hv : (t.vals.map (Val.touch x))[r]? = some v) (hf : v.fresh = true) :
    t.vals[r]? = some v ∧ b ≠ ref.buf := by
  rw [List.getElem?_map] at hv
  cases hw : t.vals[r]? with
  | none => rw [hw] at hv; simp at hv
  | some w =>
    rw [hw] at hv
    simp only [Option.map_some, Option.some.injEq] at hv
    by_cases hs : w.src = some x
    · rw [Val.touch, if_pos hs] at hv
      subst hv
      simp at hf
    · rw [Val.touch, if_neg hs] at hv
      subst hv
      refine ⟨rfl, ?_⟩
      obtain ⟨-, h2, h3⟩ := h.val r b w hb hw hf
      cases hsrc : w.src with
      | none => exact fun e => h3 hsrc x ref hx e.symm
      | some y =>
        obtain ⟨q, hq, hqb⟩ := h2 y hsrc
        intro e
        have := h.inj y x q ref hq hx (by rw [hqb, e])
        subst this
        exact hs hsrc

theorem load_set_ne {V : Type} (s : State V) (b c : Nat) (m : Option (Arr V)) (h : b ≠ c) :
    State.load { s with mem := s.mem.set c m } b = s.load b := by
  simp only [State.load]
  rw [List.getElem?_set_ne (Ne.symm h)]

/-- A write into the buffer of a variable. -/
theorem Inv.write {V : Type} {s : State V} {t : Spec.RawVars.State V} (h : Inv s t) {x : Nat} {ref : Ref} {a : Arr V}
    (hx : s.env[x]? = some ref) :
    Inv { s with mem := s.mem.set ref.buf (some a) }
      { vars := t.vars.set x (ref.kind, a), vals := t.vals.map (Val.touch x) } := by
  obtain ⟨a0, hv0, hl0⟩ := h.var x ref hx
  have hlt := load_lt hl0
  have hxt : x < t.vars.length := (List.getElem?_eq_some_iff.1 hv0).1
  refine ⟨by simpa using h.len, ?_, h.inj, by simpa using h.vlen, ?_⟩
  · intro y q hy
    by_cases e : y = x
    · subst e
      rw [hx, Option.some.injEq] at hy
      subst hy
      refine ⟨a, by rw [List.getElem?_set_self hxt], ?_⟩
      rw [load_iff]
      exact List.getElem?_set_self hlt
    · obtain ⟨c, h1, h2⟩ := h.var y q hy
      refine ⟨c, by rw [List.getElem?_set_ne (Ne.symm e)]; exact h1, ?_⟩
      rw [load_set_ne]
      · exact h2
      · exact fun eb => e (h.inj y x q ref hy hx eb)
  · intro r b v hb hv hf
    obtain ⟨h1, h2⟩ := h.touched hx hb hv hf
    obtain ⟨g1, g2, g3⟩ := h.val r b v hb h1 hf
    exact ⟨by rw [load_set_ne _ _ _ _ h2]; exact g1, g2, g3⟩

/-- An assignment. -/
theorem Inv.assign {V : Type} {s : State V} {t : Spec.RawVars.State V} (h : Inv s t) {x : Nat} {ref : Ref} {a old : Arr V}
    (hx : s.env[x]? = some ref) (ho : t.vars[x]? = some (ref.kind, old)) (hs : ref.kind = .pointer ∨ old.sizes = a.sizes) :
    ∃ s', assign s x ref a = some s' ∧
      Inv s' { vars := t.vars.set x (ref.kind, a), vals := t.vals.map (Val.touch x) } := by
  obtain ⟨a0, hv0, hl0⟩ := h.var x ref hx
  rw [ho, Option.some.injEq, Prod.mk.injEq] at hv0
  obtain ⟨-, rfl⟩ := hv0
  by_cases hk : ref.kind = .pointer
  · have hlt := load_lt hl0
    have hxt : x < t.vars.length := (List.getElem?_eq_some_iff.1 ho).1
    have hxe : x < s.env.length := (List.getElem?_eq_some_iff.1 hx).1
    refine ⟨_, by simp only [RawVars.assign, hl0, if_pos hk]; rfl, by simpa using h.len, ?_, ?_, by simpa using h.vlen, ?_⟩
    · intro y q hy
      by_cases e : y = x
      · subst e
        simp only at hy
        rw [List.getElem?_set_self hxe, Option.some.injEq] at hy
        subst hy
        refine ⟨a, by rw [List.getElem?_set_self hxt], ?_⟩
        rw [load_iff]
        simp only
        rw [List.getElem?_set_ne (by omega)]
        simp
      · simp only at hy
        rw [List.getElem?_set_ne (Ne.symm e)] at hy
        obtain ⟨c, h1, h2⟩ := h.var y q hy
        refine ⟨c, by rw [List.getElem?_set_ne (Ne.symm e)]; exact h1, ?_⟩
        rw [load_iff] at h2 ⊢
        simp only
        rw [List.getElem?_set_ne (fun eb => e (h.inj y x q ref hy hx eb.symm)),
          List.getElem?_append_left (List.getElem?_eq_some_iff.1 h2).1]
        exact h2
    · intro y z q p hy hz hb
      simp only at hy hz
      have hold : ∀ (w : Nat) o, s.env[w]? = some o → o.buf < s.mem.length := by
        intro w o hw
        obtain ⟨_, -, h2⟩ := h.var w o hw
        exact load_lt h2
      by_cases e1 : y = x <;> by_cases e2 : z = x
      · rw [e1, e2]
      · subst e1
        rw [List.getElem?_set_self hxe, Option.some.injEq] at hy
        rw [List.getElem?_set_ne (Ne.symm e2)] at hz
        have := hold z p hz
        subst hy
        simp only at hb
        omega
      · subst e2
        rw [List.getElem?_set_self hxe, Option.some.injEq] at hz
        rw [List.getElem?_set_ne (Ne.symm e1)] at hy
        have := hold y q hy
        subst hz
        simp only at hb
        omega
      · rw [List.getElem?_set_ne (Ne.symm e1)] at hy
        rw [List.getElem?_set_ne (Ne.symm e2)] at hz
        exact h.inj y z q p hy hz hb
    · intro r b v hb hv hf
      obtain ⟨h1, h2⟩ := h.touched hx hb hv hf
      obtain ⟨g1, g2, g3⟩ := h.val r b v hb h1 hf
      have hbl := load_lt g1
      refine ⟨?_, ?_, ?_⟩
      · rw [load_iff] at g1 ⊢
        simp only
        rw [List.getElem?_set_ne (Ne.symm h2), List.getElem?_append_left hbl]
        exact g1
      · intro y hy
        obtain ⟨q, hq, hqb⟩ := g2 y hy
        have hne : y ≠ x := by
          rintro rfl
          rw [hx, Option.some.injEq] at hq
          subst hq
          exact h2 hqb.symm
        refine ⟨q, ?_, hqb⟩
        simp only
        rw [List.getElem?_set_ne (Ne.symm hne)]
        exact hq
      · intro hn y q hy
        simp only at hy
        by_cases e : y = x
        · subst e
          rw [List.getElem?_set_self hxe, Option.some.injEq] at hy
          subst hy
          simp only
          omega
        · rw [List.getElem?_set_ne (Ne.symm e)] at hy
          exact g3 hn y q hy
  · have hsz : old.sizes = a.sizes := hs.resolve_left hk
    exact ⟨_, by simp only [RawVars.assign, hl0, if_neg hk, if_pos hsz], h.write hx⟩

/-- A value in a new buffer. -/
theorem Inv.push {V : Type} {s : State V} {t : Spec.RawVars.State V} (h : Inv s t) (a : Arr V) :
    Inv (s.push a) { t with vals := t.vals ++ [⟨a, none, true⟩] } := by
  have hload : ∀ b c, s.load b = some c → (s.push a).load b = some c := by
    intro b c hb
    rw [load_iff] at hb ⊢
    simp only [State.push]
    rw [List.getElem?_append_left (List.getElem?_eq_some_iff.1 hb).1]
    exact hb
  refine ⟨h.len, ?_, h.inj, by simp [State.push, h.vlen], ?_⟩
  · intro x ref hx
    obtain ⟨c, h1, h2⟩ := h.var x ref hx
    exact ⟨c, h1, hload _ _ h2⟩
  · intro r b v hb hv hf
    simp only [State.push] at hb hv
    by_cases hr : r < s.regs.length
    · rw [List.getElem?_append_left hr] at hb
      rw [List.getElem?_append_left (by rw [← h.vlen]; exact hr)] at hv
      obtain ⟨g1, g2⟩ := h.val r b v hb hv hf
      exact ⟨hload _ _ g1, g2⟩
    · have hr' : r = s.regs.length := by
        have := (List.getElem?_eq_some_iff.1 hb).1
        simp at this
        omega
      subst hr'
      rw [List.getElem?_append_right (Nat.le_refl _)] at hb
      rw [List.getElem?_append_right (by rw [h.vlen]; exact Nat.le_refl _)] at hv
      simp [h.vlen] at hb hv
      subst hb hv
      refine ⟨?_, by simp, ?_⟩
      · rw [load_iff]
        simp [State.push]
      · intro _ x ref hx e
        obtain ⟨_, -, h2⟩ := h.var x ref hx
        have := load_lt h2
        omega

theorem touch_touch {V : Type} (x : Nat) (l : List (Val V)) : (l.map (Val.touch x)).map (Val.touch x) = l.map (Val.touch x) := by
  rw [List.map_map]
  apply List.map_congr_left
  intro v _
  simp only [Function.comp, Val.touch]
  split <;> simp_all

/-- One operation. -/
theorem Inv.step {V : Type} {s : State V} {t t' : Spec.RawVars.State V} {out : List (Arr V)} (h : Inv s t) (o : Op V)
    (ho : Spec.RawVars.step true t o = some (t', out)) : ∃ s', RawVars.step s o = some (s', out) ∧ Inv s' t' := by
  cases o with
  | get x =>
    simp only [Spec.RawVars.step] at ho
    cases hx : t.vars[x]? with
    | none => rw [hx] at ho; simp at ho
    | some p =>
      obtain ⟨k, a⟩ := p
      rw [hx] at ho
      simp only [Option.map_some, Option.some.injEq, Prod.mk.injEq] at ho
      obtain ⟨rfl, rfl⟩ := ho
      obtain ⟨ref, h1, rfl, h3⟩ := h.ref hx
      by_cases hk : ref.kind = .scalar
      · refine ⟨s.push a, by simp [RawVars.step, RawVars.get, h1, hk, h3], ?_⟩
        simp only [if_pos hk]
        exact h.push a
      · refine ⟨{ s with regs := s.regs ++ [ref.buf] }, by simp [RawVars.step, RawVars.get, h1, hk], h.len, h.var, h.inj,
          by simp [h.vlen], ?_⟩
        simp only [if_neg hk]
        intro r b v hb hv hf
        by_cases hr : r < s.regs.length
        · rw [List.getElem?_append_left hr] at hb
          rw [List.getElem?_append_left (by rw [← h.vlen]; exact hr)] at hv
          exact h.val r b v hb hv hf
        · have hr' : r = s.regs.length := by
            have := (List.getElem?_eq_some_iff.1 hb).1
            simp at this
            omega
          subst hr'
          rw [List.getElem?_append_right (Nat.le_refl _)] at hb
          rw [List.getElem?_append_right (by rw [h.vlen]; exact Nat.le_refl _)] at hv
          simp [h.vlen] at hb hv
          subst hb hv
          refine ⟨h3, ?_, by simp⟩
          intro y hy
          simp only [Option.some.injEq] at hy
          subst hy
          exact ⟨ref, h1, rfl⟩
  | make a =>
    simp only [Spec.RawVars.step, Option.some.injEq, Prod.mk.injEq] at ho
    obtain ⟨rfl, rfl⟩ := ho
    exact ⟨_, rfl, h.push a⟩
  | set x r =>
    simp only [Spec.RawVars.step] at ho
    split at ho
    · next kind old v hx hv =>
      split at ho
      · next hc =>
        simp only [Option.some.injEq, Prod.mk.injEq] at ho
        obtain ⟨rfl, rfl⟩ := ho
        have hf : v.fresh = true := by simpa using hc.1
        obtain ⟨ref, h1, rfl, h3⟩ := h.ref hx
        obtain ⟨b, hb, hl⟩ := h.reg hv hf
        obtain ⟨s', g1, g2⟩ := h.assign h1 hx hc.2
        exact ⟨s', by simp [RawVars.step, RawVars.set, h1, hb, hl, g1], g2⟩
      · simp at ho
    · simp at ho
  | store x k v =>
    simp only [Spec.RawVars.step] at ho
    split at ho
    · next kind a hx =>
      split at ho
      · next hk =>
        simp only [Option.some.injEq, Prod.mk.injEq] at ho
        obtain ⟨rfl, rfl⟩ := ho
        obtain ⟨ref, h1, rfl, h3⟩ := h.ref hx
        have hw := h.write (a := { a with elems := a.elems.set k v }) h1
        have hxt : x < t.vars.length := (List.getElem?_eq_some_iff.1 hx).1
        obtain ⟨s', g1, g2⟩ := hw.assign (a := { a with elems := a.elems.set k v }) h1
          (List.getElem?_set_self hxt) (Or.inr rfl)
        refine ⟨s', by simp [RawVars.step, RawVars.store, h1, h3, hk, g1], ?_⟩
        simp only [List.set_set, touch_touch] at g2
        exact g2
      · simp at ho
    · simp at ho
  | use r =>
    simp only [Spec.RawVars.step] at ho
    split at ho
    · next v hv =>
      split at ho
      · next hc =>
        simp only [Option.some.injEq, Prod.mk.injEq] at ho
        obtain ⟨rfl, rfl⟩ := ho
        obtain ⟨b, hb, hl⟩ := h.reg hv (by simpa using hc)
        exact ⟨s, by simp [RawVars.step, hb, hl], h⟩
      · simp at ho
    · simp at ho

theorem Inv.run {V : Type} (ops : List (Op V)) {s : State V} {t : Spec.RawVars.State V} {out : List (Arr V)} (h : Inv s t)
    (ho : Spec.RawVars.run true t ops = some out) : RawVars.run s ops = some out := by
  induction ops generalizing s t out with
  | nil => exact ho
  | cons o ops ih =>
    simp only [Spec.RawVars.run] at ho
    split at ho
    · simp at ho
    · next t' out' ht =>
      split at ho
      · simp at ho
      · next rest hr =>
        obtain ⟨s', g1, g2⟩ := h.step o ht
        simp only [RawVars.run, g1, ih g2 hr]
        exact ho

theorem inv_start {V : Type} (vars : List (Kind × Arr V)) : Inv (start vars) ⟨vars, []⟩ := by
  have henv : ∀ (x : Nat) ref, (start vars).env[x]? = some ref → ∃ p, vars[x]? = some p ∧ ref = ⟨p.1, x⟩ := by
    intro x ref hx
    simp only [start, List.getElem?_map, List.getElem?_zipIdx] at hx
    cases hp : vars[x]? with
    | none => rw [hp] at hx; simp at hx
    | some p =>
      rw [hp] at hx
      simp at hx
      exact ⟨p, rfl, hx.symm⟩
  refine ⟨by simp [start], ?_, ?_, rfl, ?_⟩
  · intro x ref hx
    obtain ⟨p, hp, rfl⟩ := henv x ref hx
    refine ⟨p.2, hp, ?_⟩
    rw [load_iff]
    simp [start, hp]
  · intro x y r q hx hy hb
    obtain ⟨p, hp, rfl⟩ := henv x r hx
    obtain ⟨p', hp', rfl⟩ := henv y q hy
    exact hb
  · intro r b v hb
    simp [start] at hb

end Marco.RawVars
