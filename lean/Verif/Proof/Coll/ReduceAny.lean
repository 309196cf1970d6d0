import Verif.Proof.Coll.OrVar
/-! What `reduce` does to an arbitrary entry whose arcs point forward: whenever it returns, the kept positions have the same value as before. -/
namespace LBDD

theorem M.ok_bind {σ α β : Type} {m : M σ α} {f : α → M σ β} {s s' : σ} {b : β} (h : (m >>= f) s = .ok b s') : ∃ a s1, m s = .ok a s1 ∧ f a s1 = .ok b s' := by
  change (match m s with | .ok a s1 => f a s1 | .throw s1 => .throw s1 | .assertFail => .assertFail | .ub => .ub | .hang => .hang) = _ at h
  cases e : m s with
  | ok a s1 => rw [e] at h; exact ⟨a, s1, rfl, h⟩
  | throw s1 => rw [e] at h; cases h
  | assertFail => rw [e] at h; cases h
  | ub => rw [e] at h; cases h
  | hang => rw [e] at h; cases h

/-- Like `WfRange`, but inner nodes may have two equal arcs. -/
structure WeakRange (ins : List Instr) (d0 d1 : Nat) : Prop where
  two : d0 + 2 ≤ d1
  inner : ∀ i, d0 ≤ i → i + 2 < d1 → ∃ e, ins[i]? = some e ∧ e.index < cBot ∧ i < e.lo ∧ e.lo < d1 ∧ i < e.hi ∧ e.hi < d1
  sinks : ∃ a b, ins[d1 - 2]? = some a ∧ ins[d1 - 1]? = some b ∧ a.lo = a.hi ∧ b.lo = b.hi ∧
    (a.index = cBot ∧ b.index = cTop ∨ a.index = cTop ∧ b.index = cBot)

section
variable {ins : List Instr} {d0 d1 : Nat}

theorem WeakRange.len (h : WeakRange ins d0 d1) : d1 ≤ ins.length := by
  obtain ⟨a, b, _, hb, _⟩ := h.sinks
  have := h.two
  have := lt_of_get hb
  omega

theorem WeakRange.cases (h : WeakRange ins d0 d1) {i : Nat} (h0 : d0 ≤ i) (h1 : i < d1) :
    ∃ e, ins[i]? = some e ∧
      ((i + 2 < d1 ∧ e.index < cBot ∧ i < e.lo ∧ e.lo < d1 ∧ i < e.hi ∧ e.hi < d1) ∨
       (d1 ≤ i + 2 ∧ e.lo = e.hi ∧ (e.index = cBot ∨ e.index = cTop))) := by
  by_cases hi : i + 2 < d1
  · obtain ⟨e, a, b⟩ := h.inner i h0 hi
    exact ⟨e, a, Or.inl ⟨hi, b⟩⟩
  · obtain ⟨a, b, ha, hb, h2, h3, h4⟩ := h.sinks
    have hd : i = d1 - 2 ∨ i = d1 - 1 := by omega
    rcases hd with rfl | rfl
    · exact ⟨a, ha, Or.inr ⟨by omega, h2, by rcases h4 with h | h; exact Or.inl h.1; exact Or.inr h.1⟩⟩
    · exact ⟨b, hb, Or.inr ⟨by omega, h3, by rcases h4 with h | h; exact Or.inr h.2; exact Or.inl h.2⟩⟩

theorem WeakRange.exists (h : WeakRange ins d0 d1) : ∀ (k i : Nat), d1 - i = k → d0 ≤ i → i < d1 → ∃ t, CRepr ins i t ∧ t.height + i < d1 := by
  intro k
  induction k using Nat.strongRecOn with
  | ind k ih =>
    intro i hk h0 h1
    obtain ⟨e, he, h2 | ⟨h2, _, h3⟩⟩ := h.cases h0 h1
    · obtain ⟨a1, a2, a4, a5, a6, a7⟩ := h2
      obtain ⟨tl, l1, l2⟩ := ih (d1 - e.lo) (by omega) e.lo rfl (by omega) a5
      obtain ⟨th, r1, r2⟩ := ih (d1 - e.hi) (by omega) e.hi rfl (by omega) a7
      refine ⟨_, .node he (Instr.inner_of_lt a2) l1 r1, ?_⟩
      simp only [Tree.height]; omega
    · rcases h3 with h3 | h3
      · exact ⟨_, .bot he h3, by simp [Tree.height]; exact h1⟩
      · exact ⟨_, .top he h3, by simp [Tree.height]; exact h1⟩

theorem cEvaluate_weak {cfg : Cfg} {c : Coll} {nr : Nat} {t : Tree} {x : List Bool} (he : c.Entry nr d0 d1) (hw : WeakRange c.ins d0 d1)
    (ht : CRepr c.ins d0 t) (hx : ∀ v, t.Mem v → v < x.length) :
    cEvaluate cfg c nr x = .ok (t.eval (fun v => x.getD v false)) () := by
  unfold cEvaluate
  have hlt := he.lt
  have : ¬ c.nrBdds ≤ nr := by omega
  simp only [this, decide_false, Bool.and_false, Bool.false_eq_true, if_false, he.1]
  obtain ⟨t', h1, h2⟩ := hw.exists _ d0 rfl (Nat.le_refl _) (by have := hw.two; omega)
  have := h1.unique ht; subst this
  have := hw.len
  exact cEvalLoop_ok ht hx _ (by omega)
end

/-! ## The first loop -/

/-- Position `j` holds an instruction with two equal arcs. -/
def Redundant (ins : List Instr) (j : Nat) : Prop := ∃ e, ins[j]? = some e ∧ e.lo = e.hi

section
variable {cfg : Cfg} {c : Coll} {d0 d1 : Nat}

theorem redMark_ok (hw : WeakRange c.ins d0 d1) (h0 : 0 < d0) : ∀ k (rm : List Bool), d0 + k + 2 ≤ d1 → rm.length = d1 - d0 →
    ∃ rm', redMark d0 k rm c = .ok rm' c ∧ rm'.length = rm.length ∧
      ∀ j : Nat, rm'[j]? = some true ↔ rm[j]? = some true ∨ j < k ∧ Redundant c.ins (d0 + j)
  | 0, rm, _, _ => ⟨rm, by unfold redMark; rw [if_neg (by omega)]; rfl, rfl, by simp⟩
  | k + 1, rm, hk, hl => by
    obtain ⟨e, he, h1, h3, h4, h5, h6⟩ := hw.inner (d0 + k) (by omega) (by omega)
    obtain ⟨l, hl', _⟩ := hw.cases (i := e.lo) (by omega) h4
    obtain ⟨h, hh, _⟩ := hw.cases (i := e.hi) (by omega) h6
    obtain ⟨rm', g1, g2, g3⟩ := redMark_ok hw h0 k (if e.lo = e.hi then rm.set k true else rm) (by omega) (by split <;> simp [hl])
    refine ⟨rm', ?_, ?_, ?_⟩
    · unfold redMark
      rw [M.bind_ok (insAt_ok he), M.bind_ok (insAt_ok hl'), M.bind_ok (insAt_ok hh), M.bind_ok (skipArc_ok _ _ _), M.bind_ok (skipArc_ok _ _ _)]
      show redMark d0 k _ { c with ins := c.ins.set (d0 + k) e } = _
      rw [coll_set_self he]
      exact g1
    · rw [g2]; split <;> simp
    · intro j
      rw [g3]
      by_cases hj : j = k
      · subst hj
        have hr : Redundant c.ins (d0 + j) ↔ e.lo = e.hi := by
          constructor
          · rintro ⟨e', a, b⟩; rw [he] at a; cases a; exact b
          · exact fun h => ⟨e, he, h⟩
        rw [hr]
        split
        · rename_i hc
          rw [List.getElem?_set_self (by omega)]
          simp [hc]
        · rename_i hc
          simp [hc]
      · have : (if e.lo = e.hi then rm.set k true else rm)[j]? = rm[j]? := by
          split
          · rw [List.getElem?_set_ne (Ne.symm hj)]
          · rfl
        rw [this]
        constructor
        · rintro (h | ⟨h, h'⟩)
          · exact Or.inl h
          · exact Or.inr ⟨by omega, h'⟩
        · rintro (h | ⟨h, h'⟩)
          · exact Or.inl h
          · exact Or.inr ⟨by omega, h'⟩

/-! ## The second loop -/

/-- The two positions have the same value under every assignment. -/
def SameVal (ins : List Instr) (p q : Nat) : Prop := ∃ T T', CRepr ins p T ∧ CRepr ins q T' ∧ ∀ x, T.eval x = T'.eval x

theorem SameVal.trans {ins : List Instr} {p q r : Nat} (h : SameVal ins p q) (h' : SameVal ins q r) : SameVal ins p r := by
  obtain ⟨a, b, h1, h2, h3⟩ := h
  obtain ⟨a', b', h1', h2', h3'⟩ := h'
  have := h2.unique h1'; subst this
  exact ⟨a, b', h1, h2', fun x => (h3 x).trans (h3' x)⟩

/-- What holds when the positions from `d0 + k` on have been processed; `i0` is the vector before the loop. -/
structure MergeInv (i0 ins : List Instr) (d0 d1 k : Nat) (m : List (Instr × Nat)) (rm : List Bool) : Prop where
  low : ∀ j : Nat, j < d0 + k → ins[j]? = i0[j]?
  len : rm.length = d1 - d0
  rmlow : ∀ j : Nat, j < k → (rm[j]? = some true ↔ Redundant i0 (d0 + j))
  rmhigh : ∀ j : Nat, k ≤ j → j + 2 + d0 < d1 → Redundant i0 (d0 + j) → rm[j]? = some true
  done : ∀ p, d0 + k ≤ p → p < d1 → ∃ e0 e, i0[p]? = some e0 ∧ ins[p]? = some e ∧ e.index = e0.index ∧
    ((e0.lo = e0.hi ∧ e = e0) ∨
     (e0.lo ≠ e0.hi ∧ p < e.lo ∧ e.lo < d1 ∧ p < e.hi ∧ e.hi < d1 ∧ rm[e.lo - d0]? = some false ∧ rm[e.hi - d0]? = some false ∧
      SameVal i0 e.lo e0.lo ∧ SameVal i0 e.hi e0.hi ∧ (Redundant i0 e0.lo → d1 ≤ e0.lo + 2) ∧ (Redundant i0 e0.hi → d1 ≤ e0.hi + 2)))
  map : ∀ e j, m.lookup e = some j → d0 + k ≤ j ∧ j < d1 ∧ i0[j]? = some e ∧ rm[j - d0]? = some false ∧ (e.lo = e.hi → d1 ≤ j + 2)

/-- Looking up the current instruction of a processed position finds a kept position with the same value. -/
theorem MergeInv.find {i0 ins : List Instr} {k : Nat} {m : List (Instr × Nat)} {rm : List Bool} (hw : WeakRange i0 d0 d1) (h : MergeInv i0 ins d0 d1 k m rm)
    {p j : Nat} {e : Instr} (hp : d0 + k ≤ p) (hp1 : p < d1) (he : ins[p]? = some e) (hl : m.lookup e = some j) :
    SameVal i0 j p ∧ (Redundant i0 p → d1 ≤ p + 2) := by
  obtain ⟨e0, e', a1, a2, a3, a4⟩ := h.done p hp hp1
  rw [he] at a2; cases a2
  obtain ⟨b1, b2, b3, b4, b5⟩ := h.map e j hl
  rcases a4 with ⟨a4, rfl⟩ | ⟨a4, a5, a6, a7, a8, a9, a10, a11, a12, _⟩
  · -- a sink
    have hj := b5 a4
    obtain ⟨ex, c1, c2⟩ := hw.cases (i := p) (by omega) hp1
    rw [a1] at c1; cases c1
    obtain ⟨ey, c3, c4⟩ := hw.cases (i := j) (by omega) b2
    rw [b3] at c3; cases c3
    rcases c4 with c4 | ⟨_, _, c4⟩
    · omega
    rcases c2 with c2 | c2
    · have := cBot_lt_cTop
      rcases c4 with c4 | c4 <;> omega
    · refine ⟨?_, fun _ => c2.1⟩
      rcases c4 with c4 | c4
      · exact ⟨_, _, .bot b3 c4, .bot a1 c4, fun _ => rfl⟩
      · exact ⟨_, _, .top b3 c4, .top a1 c4, fun _ => rfl⟩
  · obtain ⟨ex, c1, c2⟩ := hw.cases (i := p) (by omega) hp1
    rw [a1] at c1; cases c1
    rcases c2 with ⟨c1, c2, c3, c4, c5, c6⟩ | c2
    · obtain ⟨T1, T1', r1, r1', v1⟩ := a11
      obtain ⟨T2, T2', r2, r2', v2⟩ := a12
      have hin : e0.Inner := Instr.inner_of_lt c2
      have hin' : e.Inner := by unfold Instr.Inner; rw [a3]; exact hin
      refine ⟨⟨_, _, .node b3 hin' r1 r2, .node a1 hin r1' r2', fun x => ?_⟩, ?_⟩
      · simp only [Tree.eval, v1, v2, a3]
      · rintro ⟨e2, g1, g2⟩
        rw [a1] at g1; cases g1
        exact absurd g2 a4
    · exact absurd c2.2.1 a4

theorem mapAt_bind {β : Type} {m : List (Instr × Nat)} {e : Instr} {f : Nat → M Coll β} {c' : Coll} {b : β} (h : (mapAt m e >>= f) c = .ok b c') :
    ∃ j, m.lookup e = some j ∧ f j c = .ok b c' := by
  obtain ⟨j, c1, h1, h2⟩ := M.ok_bind h
  unfold mapAt at h1
  cases hl : m.lookup e with
  | none => rw [hl] at h1; cases h1
  | some k => rw [hl] at h1; cases h1; exact ⟨_, rfl, h2⟩

theorem insAt_bind {β : Type} {i : Nat} {f : Instr → M Coll β} {c' : Coll} {b : β} (h : (insAt i >>= f) c = .ok b c') :
    ∃ e, c.ins[i]? = some e ∧ f e c = .ok b c' := by
  obtain ⟨e, c1, h1, h2⟩ := M.ok_bind h
  unfold insAt at h1
  cases hl : c.ins[i]? with
  | none => rw [hl] at h1; cases h1
  | some k => rw [hl] at h1; cases h1; exact ⟨_, rfl, h2⟩

theorem assert_bind_inv {β : Type} {nd p : Bool} {f : Unit → M Coll β} {c' : Coll} {b : β} (h : (M.assert nd p >>= f) c = .ok b c') :
    f () c = .ok b c' := by
  obtain ⟨_, c1, h1, h2⟩ := M.ok_bind h
  unfold M.assert at h1
  split at h1
  · cases h1; exact h2
  · cases h1

theorem redMerge_ok {i0 : List Instr} (hw : WeakRange i0 d0 d1) : ∀ k m rm (c : Coll) rm' c', d0 + k + 2 ≤ d1 → MergeInv i0 c.ins d0 d1 k m rm →
    c.ins.length = i0.length → redMerge cfg d0 k m rm c = .ok rm' c' →
    ∃ ins' m', c' = { c with ins := ins' } ∧ ins'.length = i0.length ∧ MergeInv i0 ins' d0 d1 0 m' rm' ∧
      ∀ j : Nat, rm'[j]? = some true → rm[j]? = some true ∨ (j < k ∧ ∃ j' e, j < j' ∧ d0 + j' < d1 ∧ i0[d0 + j]? = some e ∧ i0[d0 + j']? = some e)
  | 0, m, rm, c, rm', c', _, hm, hl, h => by
    unfold redMerge at h
    split at h
    · cases h
    · cases h
      exact ⟨c.ins, m, rfl, hl, hm, fun j h => Or.inl h⟩
  | k + 1, m, rm, c, rm', c', hk, hm, hl, h => by
    obtain ⟨e, he, h1, h3, h4, h5, h6⟩ := hw.inner (d0 + k) (by omega) (by omega)
    have hlow := hm.low (d0 + k) (by omega)
    unfold redMerge at h
    split at h
    · -- redundant
      rename_i hrm
      have hred := (hm.rmlow k (by omega)).1 hrm
      have hm' : MergeInv i0 c.ins d0 d1 k m rm := by
        refine ⟨fun j hj => hm.low j (by omega), hm.len, fun j hj => hm.rmlow j (by omega), fun j hj h2 hr => ?_, fun p hp hp1 => ?_, fun e' j hj => ?_⟩
        · by_cases hjk : j = k
          · subst hjk; exact hrm
          · exact hm.rmhigh j (by omega) h2 hr
        · by_cases hpk : p = d0 + k
          · subst hpk
            refine ⟨e, e, he, by rw [hlow]; exact he, rfl, Or.inl ⟨?_, rfl⟩⟩
            obtain ⟨e2, g1, g2⟩ := hred
            rw [he] at g1; cases g1; exact g2
          · exact hm.done p (by omega) hp1
        · have := hm.map e' j hj
          exact ⟨by omega, this.2⟩
      obtain ⟨ins', m', g1, g2, g3, g4⟩ := redMerge_ok hw k m rm c rm' c' (by omega) hm' hl h
      refine ⟨ins', m', g1, g2, g3, fun j hj => ?_⟩
      rcases g4 j hj with g | ⟨g, g'⟩
      · exact Or.inl g
      · exact Or.inr ⟨by omega, g'⟩
    · rename_i hrm
      have hnred : e.lo ≠ e.hi := fun hr => hrm ((hm.rmlow k (by omega)).2 ⟨e, he, hr⟩)
      have hrmf : rm[k]? = some false := by
        have hk' : k < rm.length := by rw [hm.len]; omega
        rw [List.getElem?_eq_getElem hk'] at hrm ⊢
        cases hb : rm[k]
        · rfl
        · rw [hb] at hrm; exact absurd rfl hrm
      obtain ⟨e', g, h⟩ := insAt_bind h
      rw [hlow, he] at g; cases g
      obtain ⟨l, hl1, h⟩ := insAt_bind h
      obtain ⟨hh, hh1, h⟩ := insAt_bind h
      replace h := assert_bind_inv (assert_bind_inv h)
      obtain ⟨lo, hlo, h⟩ := mapAt_bind h
      rw [M.modify_bind] at h
      obtain ⟨hh', hh2, h⟩ := insAt_bind h
      have hh3 : hh' = hh := by
        have : (c.ins.set (d0 + k) { e with lo := lo })[e.hi]? = c.ins[e.hi]? := List.getElem?_set_ne (by omega)
        rw [show ({ c with ins := c.ins.set (d0 + k) { e with lo := lo } } : Coll).ins[e.hi]? = c.ins[e.hi]? from this, hh1] at hh2
        cases hh2; rfl
      subst hh3
      obtain ⟨hi, hhi, h⟩ := mapAt_bind h
      rw [M.modify_bind] at h
      dsimp only at h
      rw [List.set_set] at h
      -- the looked-up child is an earlier key
      have hchild : ∀ (p : Nat) (l : Instr) (j : Nat), d0 + k < p → p < d1 → (p = e.lo ∨ p = e.hi) → c.ins[p]? = some l →
          (insertNew m e (d0 + k)).lookup l = some j → m.lookup l = some j := by
        intro p l j hp hp1 hpe hl hj
        rw [lookup_insertNew] at hj
        split at hj
        · rename_i hc
          obtain ⟨rfl, _⟩ := hc
          exfalso
          obtain ⟨e0, e1, b1, b2, b3, b4⟩ := hm.done p (by omega) hp1
          rw [hl] at b2; cases b2
          rcases b4 with ⟨b4, rfl⟩ | ⟨_, b5, b6, b7, b8, _⟩
          · exact hnred b4
          · omega
        · exact hj
      have klo := hchild e.lo l lo (by omega) h4 (Or.inl rfl) hl1 hlo
      have khi := hchild e.hi hh' hi (by omega) h6 (Or.inr rfl) hh1 hhi
      obtain ⟨q1, q2⟩ := hm.find hw (by omega) h4 hl1 klo
      obtain ⟨q3, q4⟩ := hm.find hw (by omega) h6 hh1 khi
      obtain ⟨x1, x2, x3, x4, x5⟩ := hm.map _ _ klo
      obtain ⟨y1, y2, y3, y4, y5⟩ := hm.map _ _ khi
      -- the new removal flags
      have hset : ∀ j : Nat, j ≠ k → (if (m.lookup e).isSome then rm.set k true else rm)[j]? = rm[j]? := by
        intro j hj
        split
        · rw [List.getElem?_set_ne (Ne.symm hj)]
        · rfl
      have hm' : MergeInv i0 (c.ins.set (d0 + k) { e with lo := lo, hi := hi }) d0 d1 k (insertNew m e (d0 + k))
          (if (m.lookup e).isSome then rm.set k true else rm) := by
        refine ⟨fun j hj => ?_, ?_, fun j hj => ?_, fun j hj h2 hr => ?_, fun p hp hp1 => ?_, fun e' j hj => ?_⟩
        · rw [List.getElem?_set_ne (by omega)]; exact hm.low j (by omega)
        · split
          · rw [List.length_set]; exact hm.len
          · exact hm.len
        · rw [hset j (by omega)]; exact hm.rmlow j (by omega)
        · by_cases hjk : j = k
          · subst hjk
            obtain ⟨e2, g1, g2⟩ := hr
            rw [he] at g1; cases g1; exact absurd g2 hnred
          · rw [hset j hjk]; exact hm.rmhigh j (by omega) h2 hr
        · by_cases hpk : p = d0 + k
          · subst hpk
            refine ⟨e, { e with lo := lo, hi := hi }, he, ?_, rfl, Or.inr ⟨hnred, ?_, x2, ?_, y2, ?_, ?_, q1, q3, q2, q4⟩⟩
            · rw [List.getElem?_set_self]
              have := hw.len; omega
            · show d0 + k < lo
              omega
            · show d0 + k < hi
              omega
            · show (if _ then _ else _)[lo - d0]? = _
              rw [hset _ (by omega)]; exact x4
            · show (if _ then _ else _)[hi - d0]? = _
              rw [hset _ (by omega)]; exact y4
          · obtain ⟨e0, e1, b1, b2, b3, b4⟩ := hm.done p (by omega) hp1
            refine ⟨e0, e1, b1, ?_, b3, ?_⟩
            · rw [List.getElem?_set_ne (by omega)]; exact b2
            · rcases b4 with b4 | ⟨b4, b5, b6, b7, b8, b9, b10, b11⟩
              · exact Or.inl b4
              · refine Or.inr ⟨b4, b5, b6, b7, b8, ?_, ?_, b11⟩
                · rw [hset _ (by omega)]; exact b9
                · rw [hset _ (by omega)]; exact b10
        · rw [lookup_insertNew] at hj
          split at hj
          · rename_i hc
            obtain ⟨rfl, hc⟩ := hc
            cases hj
            refine ⟨Nat.le_refl _, by omega, he, ?_, fun hr => absurd hr hnred⟩
            rw [hc, show d0 + k - d0 = k by omega]
            exact hrmf
          · obtain ⟨z1, z2, z3, z4, z5⟩ := hm.map _ _ hj
            refine ⟨by omega, z2, z3, ?_, z5⟩
            rw [hset _ (by omega)]; exact z4
      obtain ⟨ins', m', g1, g2, g3, g4⟩ := redMerge_ok hw k _ _ { c with ins := c.ins.set (d0 + k) { e with lo := lo, hi := hi } } rm' c' (by omega) hm'
        (by rw [show ({ c with ins := c.ins.set (d0 + k) { e with lo := lo, hi := hi } } : Coll).ins.length = c.ins.length from List.length_set]; exact hl) h
      refine ⟨ins', m', g1, g2, g3, fun j hj => ?_⟩
      rcases g4 j hj with g | ⟨g, g'⟩
      · by_cases hjk : j = k
        · subst hjk
          split at g
          · rename_i hs
            obtain ⟨j', hj'⟩ := Option.isSome_iff_exists.1 hs
            obtain ⟨z1, z2, z3, _⟩ := hm.map _ _ hj'
            exact Or.inr ⟨by omega, j' - d0, e, by omega, by omega, he, by rw [show d0 + (j' - d0) = j' by omega]; exact z3⟩
          · exact Or.inl g
        · rw [hset j hjk] at g; exact Or.inl g
      · exact Or.inr ⟨by omega, g'⟩

/-! ## The third loop -/

/-- Number of removed positions among the first `j`. -/
def removed (rm : List Bool) (j : Nat) : Nat := ((rm.take j).filter (· == true)).length

theorem removed_zero (rm : List Bool) : removed rm 0 = 0 := by simp [removed]

theorem removed_succ (rm : List Bool) (j : Nat) : removed rm (j + 1) = removed rm j + if rm[j]? = some true then 1 else 0 := by
  unfold removed
  rw [List.take_add_one, List.filter_append, List.length_append]
  cases rm[j]? with
  | none => simp
  | some b => cases b <;> simp

theorem removed_le (rm : List Bool) (j : Nat) : removed rm j ≤ j := by
  induction j with
  | zero => rw [removed_zero]; exact Nat.le_refl _
  | succ j ih => rw [removed_succ]; split <;> omega

theorem removed_add (rm : List Bool) (i n : Nat) : removed rm i ≤ removed rm (i + n) ∧ removed rm (i + n) ≤ removed rm i + n := by
  induction n with
  | zero => exact ⟨Nat.le_refl _, Nat.le_refl _⟩
  | succ n ih => rw [show i + (n + 1) = (i + n) + 1 by omega, removed_succ]; split <;> omega

/-- Passing a kept position, the new position grows. -/
theorem removed_kept {rm : List Bool} {i j : Nat} (hi : rm[i]? = some false) (h : i < j) : i - removed rm i < j - removed rm j := by
  obtain ⟨n, rfl⟩ : ∃ n, j = (i + 1) + n := ⟨j - (i + 1), by omega⟩
  have h1 := removed_add rm (i + 1) n
  have h2 := removed_succ rm i
  rw [hi] at h2
  simp at h2
  have := removed_le rm i
  omega

theorem removed_mono {rm : List Bool} {i j : Nat} (h : i ≤ j) : i - removed rm i ≤ j - removed rm j := by
  obtain ⟨n, rfl⟩ : ∃ n, j = i + n := ⟨j - i, by omega⟩
  have h1 := removed_add rm i n
  have := removed_le rm i
  omega

theorem subDelta_eq {rm : List Bool} {a i : Nat} (h : removed rm i < 128) : subDelta rm a i = a - removed rm i := by
  unfold subDelta
  show (if removed rm i % 256 < 128 then a - removed rm i % 256 else _) = _
  rw [Nat.mod_eq_of_lt (by omega), if_pos h]

/-- With 128 or more removed positions before it, a position at the end of the entry is moved past the new end. -/
theorem subDelta_far {rm : List Bool} {a i n : Nat} (h : 128 ≤ removed rm i) (ha : n ≤ a + 2) : n ≤ subDelta rm a i + removed rm i := by
  unfold subDelta
  show n ≤ (if removed rm i % 256 < 128 then a - removed rm i % 256 else a + (256 - removed rm i % 256)) + _
  split <;> omega

theorem redCopy_ok {rm : List Bool} (hlen : rm.length = d1 - d0)
    (hk : ∀ j : Nat, j + 2 + d0 < d1 → rm[j]? ≠ some true → ∃ e, c.ins[d0 + j]? = some e ∧ d0 ≤ e.lo ∧ e.lo < d1 ∧ d0 ≤ e.hi ∧ e.hi < d1) :
    ∀ n i, d0 + i + n + 2 = d1 → ∃ l, redCopy d0 rm n i c = .ok l c ∧ l.length + removed rm (i + n) = n + removed rm i ∧
      ∀ (j : Nat) (e : Instr), i ≤ j → j < i + n → rm[j]? = some false → c.ins[d0 + j]? = some e →
        l[(j - removed rm j) - (i - removed rm i)]? = some ⟨subDelta rm e.lo (e.lo - d0), subDelta rm e.hi (e.hi - d0), e.index⟩
  | 0, i, _ => ⟨[], by unfold redCopy; rfl, by simp, fun j e h1 h2 => by omega⟩
  | n + 1, i, hn => by
    obtain ⟨l, h1, h2, h3⟩ := redCopy_ok hlen hk n (i + 1) (by omega)
    have hs := removed_succ rm i
    have hle := removed_le rm i
    have hadd := removed_add rm i (n + 1)
    rw [show i + 1 + n = i + (n + 1) by omega] at h2
    unfold redCopy
    by_cases hr : rm[i]? = some true
    · rw [if_pos hr] at hs
      rw [if_pos hr]
      refine ⟨l, h1, by omega, fun j e hj1 hj2 hj3 hj4 => ?_⟩
      have hji : j ≠ i := by rintro rfl; rw [hr] at hj3; cases hj3
      have := h3 j e (by omega) (by omega) hj3 hj4
      rw [hs] at this
      rw [show i - removed rm i = i + 1 - (removed rm i + 1) by omega]
      exact this
    · rw [if_neg hr] at hs
      rw [if_neg hr]
      obtain ⟨e, he, g1, g3, g4, g5⟩ := hk i (by omega) hr
      rw [M.bind_ok (insAt_ok he), if_neg (by rw [hlen]; omega), M.bind_ok h1]
      refine ⟨_, rfl, by simp; omega, fun j e' hj1 hj2 hj3 hj4 => ?_⟩
      by_cases hji : j = i
      · subst hji
        rw [he] at hj4; cases hj4
        simp
      · have hm := removed_mono (rm := rm) (show i + 1 ≤ j by omega)
        have := h3 j e' (by omega) (by omega) hj3 hj4
        rw [hs] at this
        rw [hs] at hm
        rw [show (j - removed rm j) - (i - removed rm i) = ((j - removed rm j) - (i + 1 - (removed rm i + 0))) + 1 by omega, List.getElem?_cons_succ]
        exact this


/-! ## The whole function -/

/-- Copying the kept instructions. `i0` is the vector before, `ins` after the second loop, `new` the result. -/
theorem kept_repr {i0 ins new : List Instr} {m : List (Instr × Nat)} {rm : List Bool} (hw : WeakRange i0 d0 d1) (hm : MergeInv i0 ins d0 d1 0 m rm)
    (hnew : ∀ (p : Nat) (e : Instr), d0 ≤ p → p + 2 < d1 → rm[p - d0]? = some false → ins[p]? = some e →
      new[p - removed rm (p - d0)]? = some ⟨e.lo - removed rm (e.lo - d0), e.hi - removed rm (e.hi - d0), e.index⟩)
    (hsink : ∀ (p : Nat) (e : Instr), d0 ≤ p → p < d1 → d1 ≤ p + 2 → ins[p]? = some e → new[p - removed rm (p - d0)]? = some e) :
    ∀ k p, d1 - p = k → d0 ≤ p → p < d1 → rm[p - d0]? = some false → ∀ T, CRepr i0 p T →
      ∃ T', CRepr new (p - removed rm (p - d0)) T' ∧ (∀ x, T'.eval x = T.eval x) ∧
        ∀ v, T'.Mem v → ∃ j e, d0 ≤ j ∧ j < d1 ∧ i0[j]? = some e ∧ e.Inner ∧ e.index = v := by
  intro k
  induction k using Nat.strongRecOn with
  | ind k ih =>
    intro p hk h0 h1 hr T hT
    obtain ⟨e0, e, a1, a2, a3, a4⟩ := hm.done p (by omega) h1
    obtain ⟨e0', b1, b2⟩ := hw.cases h0 h1
    rw [a1] at b1; cases b1
    rcases b2 with ⟨b1, b2, b3⟩ | ⟨b1, b2, b3⟩
    · have hin : e0.Inner := Instr.inner_of_lt b2
      have hin' : e.Inner := by unfold Instr.Inner; rw [a3]; exact hin
      rcases a4 with ⟨a4, _⟩ | ⟨a4, a5, a6, a7, a8, a9, a10, ⟨T1, T1', r1, r1', v1⟩, ⟨T2, T2', r2, r2', v2⟩, _⟩
      · exfalso
        have := hm.rmhigh (p - d0) (by omega) (by omega) ⟨e0, by rw [show d0 + (p - d0) = p by omega]; exact a1, a4⟩
        rw [hr] at this; cases this
      · obtain ⟨L, l1, l2, l3⟩ := ih (d1 - e.lo) (by omega) e.lo rfl (by omega) a6 a9 T1 r1
        obtain ⟨H, g1, g2, g3⟩ := ih (d1 - e.hi) (by omega) e.hi rfl (by omega) a8 a10 T2 r2
        have hn := hnew p e h0 b1 hr a2
        have hnode := CRepr.node (tl := L) (th := H) hn hin' l1 g1
        refine ⟨.node e.index L H, hnode, fun x => ?_, fun v hv => ?_⟩
        · have := (CRepr.node a1 hin r1' r2').unique hT
          subst this
          simp only [Tree.eval, l2, g2, v1, v2, a3]
        · rcases hv with rfl | hv | hv
          · exact ⟨p, e0, h0, h1, a1, hin, a3.symm⟩
          · exact l3 v hv
          · exact g3 v hv
    · have he : e = e0 := by
        rcases a4 with ⟨_, a4⟩ | ⟨a4, _⟩
        · exact a4
        · exact absurd b2 a4
      subst he
      have hs := hsink p e h0 h1 b1 a2
      rcases b3 with b3 | b3
      · have := (CRepr.bot a1 b3).unique hT; subst this
        exact ⟨_, .bot hs b3, fun _ => rfl, fun v hv => hv.elim⟩
      · have := (CRepr.top a1 b3).unique hT; subst this
        exact ⟨_, .top hs b3, fun _ => rfl, fun v hv => hv.elim⟩

/-- Whenever `reduce` returns: the entry keeps its value if its root stays, and no node that stays had a child with two equal arcs. -/
theorem reduceLast_ok {nr : Nat} (hn : c.nrBdds = nr + 1) (he : c.Entry nr d0 c.ins.length) (hw : WeakRange c.ins d0 c.ins.length) (h0 : 0 < d0)
    {u : Unit} {c' : Coll} (hrun : reduceLast cfg c = .ok u c') :
    (∀ p e, d0 ≤ p → p + 2 < c.ins.length → c.ins[p]? = some e → e.lo ≠ e.hi →
      (Redundant c.ins e.lo → c.ins.length ≤ e.lo + 2) ∧ (Redundant c.ins e.hi → c.ins.length ≤ e.hi + 2)) ∧
    ∃ xs k, c' = { c with ins := c.ins.take d0 ++ xs, del := c.del.set (nr + 1) (d0 + xs.length) } ∧ d0 + xs.length + k = c.ins.length ∧
      (cfg.ndebug = true ∨ c'.isBdd nr = true) ∧
      ((d0 + 2 < c.ins.length → ¬ Redundant c.ins d0 ∧ ∀ (j : Nat) (e : Instr), d0 < j → c.ins[d0]? = some e → c.ins[j]? ≠ some e) →
        d0 + 2 < c.ins.length → 2 < xs.length) ∧
      (k < 128 → WeakRange (c.ins.take d0 ++ xs) d0 (d0 + xs.length) ∧
        ((d0 + 2 < c.ins.length → ¬ Redundant c.ins d0 ∧ ∀ (j : Nat) (e : Instr), d0 < j → c.ins[d0]? = some e → c.ins[j]? ≠ some e) →
          ∀ T, CRepr c.ins d0 T → ∃ T', CRepr (c.ins.take d0 ++ xs) d0 T' ∧ (∀ x, T'.eval x = T.eval x) ∧
            ∀ v, T'.Mem v → ∃ j e, d0 ≤ j ∧ j < c.ins.length ∧ c.ins[j]? = some e ∧ e.Inner ∧ e.index = v)) ∧
      (128 ≤ k → 2 < xs.length → ∃ j e, d0 ≤ j ∧ j + 2 < d0 + xs.length ∧ (c.ins.take d0 ++ xs)[j]? = some e ∧ e.Inner ∧
        d0 + xs.length ≤ e.lo ∧ d0 + xs.length ≤ e.hi) := by
  obtain ⟨b, a, hb, ha, tb, ta, hab⟩ := hw.sinks
  have h2 := hw.two
  unfold reduceLast at hrun
  rw [M.get_bind_apply, M.assert_bind_apply (by simp; omega)] at hrun
  have hnr : c.nrBdds - 1 = nr := by omega
  simp only [hnr] at hrun
  rw [M.bind_ok (dlm_ok0 he), M.bind_ok (dlm_ok1 he), if_neg (by omega)] at hrun
  obtain ⟨rm, g1, g2, g3⟩ := redMark_ok hw h0 (c.ins.length - 2 - d0) (List.replicate (c.ins.length - d0) false) (by omega) (by simp)
  rw [M.bind_ok g1, M.bind_ok (insAt_ok ha), M.bind_ok (insAt_ok hb)] at hrun
  have hg3 : ∀ j : Nat, rm[j]? = some true ↔ j < c.ins.length - 2 - d0 ∧ Redundant c.ins (d0 + j) := by
    intro j
    rw [g3]
    constructor
    · rintro (h | h)
      · have := List.mem_of_getElem? h
        simp at this
      · exact h
    · exact Or.inr
  have hlen : rm.length = c.ins.length - d0 := by rw [g2]; simp
  have hfalse : ∀ (l : List Bool) (j : Nat), l.length = c.ins.length - d0 → j < c.ins.length - d0 → l[j]? ≠ some true → l[j]? = some false := by
    intro l j hl hj h
    rw [List.getElem?_eq_getElem (by omega)] at h ⊢
    cases hx : l[j]
    · rfl
    · rw [hx] at h; exact absurd rfl h
  have hne : a ≠ b := by
    intro h
    subst h
    have := cBot_ne_cTop
    rcases hab with ⟨h, h'⟩ | ⟨h, h'⟩
    · exact this (h.symm.trans h')
    · exact this (h'.symm.trans h)
  -- the invariant holds at the start
  have hm0 : MergeInv c.ins c.ins d0 c.ins.length (c.ins.length - 2 - d0) (insertNew (insertNew [] a (c.ins.length - 1)) b (c.ins.length - 2)) rm := by
    refine ⟨fun _ _ => rfl, hlen, fun j hj => ?_, fun j hj hj2 => by omega, fun p hp hp1 => ?_, fun e j hj => ?_⟩
    · rw [hg3]; simp [hj]
    · obtain ⟨e0, x1, x2⟩ := hw.cases (i := p) (by omega) hp1
      refine ⟨e0, e0, x1, x1, rfl, Or.inl ⟨?_, rfl⟩⟩
      rcases x2 with x2 | x2
      · omega
      · exact x2.2.1
    · have hf : ∀ q, q < c.ins.length → c.ins.length ≤ q + 2 → rm[q - d0]? = some false := by
        intro q hq hq2
        refine hfalse _ _ hlen (by omega) ?_
        rw [Ne, hg3]; omega
      rw [lookup_insertNew] at hj
      split at hj
      · rename_i hc
        obtain ⟨rfl, _⟩ := hc
        cases hj
        exact ⟨by omega, by omega, hb, hf _ (by omega) (by omega), fun _ => by omega⟩
      · rw [lookup_insertNew] at hj
        split at hj
        · rename_i hc
          obtain ⟨rfl, _⟩ := hc
          cases hj
          exact ⟨by omega, by omega, ha, hf _ (by omega) (by omega), fun _ => by omega⟩
        · simp at hj
  obtain ⟨rm', c1, y1, hrun⟩ := M.ok_bind hrun
  obtain ⟨ins', m', rfl, z2, hm, z4⟩ := redMerge_ok hw _ _ _ _ _ _ (by omega) hm0 rfl y1
  refine ⟨fun p e hp hp1 hpe hpn => ?_, ?_⟩
  · obtain ⟨e0, e', a1, a2, a3, a4⟩ := hm.done p (by omega) (by omega)
    rw [hpe] at a1; cases a1
    rcases a4 with ⟨a4, _⟩ | ⟨_, _, _, _, _, _, _, _, _, a5, a6⟩
    · exact absurd a4 hpn
    · exact ⟨a5, a6⟩
  have hkeep : ∀ j : Nat, c.ins.length - 2 - d0 ≤ j → j < c.ins.length - d0 → rm'[j]? = some false := by
    intro j hj hj1
    refine hfalse _ _ hm.len hj1 fun h => ?_
    rcases z4 j h with h | ⟨h, _⟩
    · rw [hg3] at h; omega
    · omega
  have hdat : ∀ j : Nat, j + 2 + d0 < c.ins.length → rm'[j]? ≠ some true → ∃ e, ({ c with ins := ins' } : Coll).ins[d0 + j]? = some e ∧ d0 ≤ e.lo ∧ e.lo < c.ins.length ∧
      d0 ≤ e.hi ∧ e.hi < c.ins.length := by
    intro j hj hr
    obtain ⟨e0, e', a1, a2, a3, a4⟩ := hm.done (d0 + j) (by omega) (by omega)
    rcases a4 with ⟨a4, rfl⟩ | ⟨_, a5, a6, a7, a8, _⟩
    · exact absurd (hm.rmhigh j (by omega) (by omega) ⟨_, a1, a4⟩) hr
    · exact ⟨e', a2, by omega, by omega, by omega, by omega⟩
  obtain ⟨l, l1, l2, l3⟩ := redCopy_ok (c := { c with ins := ins' }) hm.len hdat (c.ins.length - 2 - d0) 0 (by omega)
  rw [M.bind_ok l1] at hrun
  have hsame : ∀ (p : Nat) (e : Instr), p < c.ins.length → c.ins.length ≤ p + 2 → c.ins[p]? = some e → ins'[p]? = some e := by
    intro p e hp hp2 hpe
    obtain ⟨e0, x1, x2⟩ := hw.cases (i := p) (by omega) hp
    rw [hpe] at x1; cases x1
    obtain ⟨e0, e', a1, a2, a3, a4⟩ := hm.done p (by omega) hp
    rw [hpe] at a1; cases a1
    rcases a4 with ⟨_, rfl⟩ | ⟨a4, _⟩
    · exact a2
    · rcases x2 with x2 | x2
      · omega
      · exact absurd x2.2.1 a4
  have hb' := hsame _ _ (by omega) (by omega) hb
  have ha' := hsame _ _ (by omega) (by omega) ha
  rw [M.bind_ok (insAt_ok (c := { c with ins := ins' }) hb'), M.bind_ok (insAt_ok (c := { c with ins := ins' }) ha'), M.modify_bind, M.get_bind_apply] at hrun
  have htake : ins'.take d0 = c.ins.take d0 := by
    apply List.ext_getElem?
    intro j
    by_cases hj : j < d0
    · rw [List.getElem?_take_of_lt hj, List.getElem?_take_of_lt hj, hm.low j (by omega)]
    · rw [List.getElem?_eq_none (by simp; omega), List.getElem?_eq_none (by simp; omega)]
  have hc' : c' = { c with ins := c.ins.take d0 ++ (l ++ [b, a]), del := c.del.set (nr + 1) (d0 + (l ++ [b, a]).length) } ∧
      (cfg.ndebug = true ∨ c'.isBdd nr = true) := by
    have : ∀ (x : Coll), M.assert cfg.ndebug (x.isBdd nr) x = .ok u c' → c' = x ∧ (cfg.ndebug = true ∨ c'.isBdd nr = true) := by
      intro x hx
      unfold M.assert at hx
      split at hx
      · rename_i h
        cases hx; exact ⟨rfl, by simpa using h⟩
      · cases hx
    refine ⟨?_, (this _ hrun).2⟩
    rw [(this _ hrun).1]
    have e1 : (ins'.take d0 ++ l ++ [b, a]) = c.ins.take d0 ++ (l ++ [b, a]) := by rw [htake, List.append_assoc]
    have e2 : (c.ins.take d0 ++ (l ++ [b, a])).length = d0 + (l ++ [b, a]).length := by
      rw [List.length_append, List.length_take]; omega
    show ({ c with ins := ins'.take d0 ++ l ++ [b, a], del := c.del.set (nr + 1) (ins'.take d0 ++ l ++ [b, a]).length } : Coll) = _
    rw [e1, e2]
  have l2' : l.length + removed rm' (c.ins.length - 2 - d0) = c.ins.length - 2 - d0 := by
    rw [Nat.zero_add, removed_zero] at l2; omega
  have hlt : (c.ins.take d0).length = d0 := by rw [List.length_take]; omega
  have hget : ∀ q : Nat, (c.ins.take d0 ++ (l ++ [b, a]))[d0 + q]? = (l ++ [b, a])[q]? := by
    intro q
    rw [List.getElem?_append_right (by omega), hlt, show d0 + q - d0 = q by omega]
  have hnew0 : ∀ (p : Nat) (e : Instr), d0 ≤ p → p + 2 < c.ins.length → rm'[p - d0]? = some false → ins'[p]? = some e →
      (c.ins.take d0 ++ (l ++ [b, a]))[p - removed rm' (p - d0)]? = some ⟨subDelta rm' e.lo (e.lo - d0), subDelta rm' e.hi (e.hi - d0), e.index⟩ := by
    intro p e hp hp2 hr hpe
    have h := l3 (p - d0) e (by omega) (by omega) hr (by rw [show d0 + (p - d0) = p by omega]; exact hpe)
    rw [removed_zero] at h
    have hle := removed_le rm' (p - d0)
    have hl := lt_of_get h
    rw [show p - removed rm' (p - d0) = d0 + (p - d0 - removed rm' (p - d0) - (0 - 0)) by omega, hget, List.getElem?_append_left hl]
    exact h
  have hsucc : removed rm' (c.ins.length - 1 - d0) = removed rm' (c.ins.length - 2 - d0) := by
    rw [show c.ins.length - 1 - d0 = (c.ins.length - 2 - d0) + 1 by omega, removed_succ, hkeep _ (Nat.le_refl _) (by omega)]
    simp
  have hsink : ∀ (p : Nat) (e : Instr), d0 ≤ p → p < c.ins.length → c.ins.length ≤ p + 2 → ins'[p]? = some e →
      (c.ins.take d0 ++ (l ++ [b, a]))[p - removed rm' (p - d0)]? = some e := by
    intro p e hp hp1 hp2 hpe
    have hp3 : p = c.ins.length - 2 ∨ p = c.ins.length - 1 := by omega
    rcases hp3 with rfl | rfl
    · rw [hb'] at hpe; cases hpe
      rw [show c.ins.length - 2 - removed rm' (c.ins.length - 2 - d0) = d0 + l.length by omega, hget, List.getElem?_append_right (Nat.le_refl _)]
      simp
    · rw [ha'] at hpe; cases hpe
      rw [hsucc, show c.ins.length - 1 - removed rm' (c.ins.length - 2 - d0) = d0 + (l.length + 1) by omega, hget, List.getElem?_append_right (by omega)]
      simp
  have hkk : removed rm' (c.ins.length - 2 - d0) = removed rm' (c.ins.length - d0) := by
    rw [← hsucc, show c.ins.length - d0 = (c.ins.length - 1 - d0) + 1 by omega, removed_succ, hkeep _ (by omega) (by omega)]
    simp
  have hll : (l ++ [b, a]).length = l.length + 2 := by simp
  -- a position of the result comes from a kept one
  have hfrom : ∀ i, d0 ≤ i → i + 2 < d0 + (l ++ [b, a]).length → ∀ n, n ≤ c.ins.length - 2 - d0 → i - d0 < n - removed rm' n →
      ∃ j, j < n ∧ rm'[j]? = some false ∧ j - removed rm' j = i - d0 := by
    intro i hi1 hi2 n
    induction n with
    | zero => intro _ h; omega
    | succ n ih =>
      intro hn1 hn2
      by_cases hlt : i - d0 < n - removed rm' n
      · obtain ⟨j, j1, j2⟩ := ih (by omega) hlt
        exact ⟨j, by omega, j2⟩
      · have hs := removed_succ rm' n
        have := removed_le rm' n
        by_cases hx : rm'[n]? = some true
        · rw [if_pos hx] at hs; omega
        · rw [if_neg hx] at hs
          exact ⟨n, by omega, hfalse _ _ hm.len (by omega) hx, by omega⟩
  have hr0 : (d0 + 2 < c.ins.length → ¬ Redundant c.ins d0 ∧ ∀ (j : Nat) (e : Instr), d0 < j → c.ins[d0]? = some e → c.ins[j]? ≠ some e) →
      rm'[d0 - d0]? = some false := by
    intro hroot
    rw [Nat.sub_self]
    by_cases hd : d0 + 2 < c.ins.length
    · obtain ⟨q1, q2⟩ := hroot hd
      refine hfalse _ _ hm.len (by omega) fun h => ?_
      rcases z4 0 h with h | ⟨_, j', e, k1, k2, k3, k4⟩
      · rw [hg3] at h
        exact q1 h.2
      · exact q2 (d0 + j') e (by omega) k3 k4
    · exact hkeep 0 (by omega) (by omega)
  -- the result
  refine ⟨l ++ [b, a], removed rm' (c.ins.length - 2 - d0), hc'.1, by omega, hc'.2, fun hroot hd => ?_, fun hk => ?_, fun hk hx2 => ?_⟩
  · have h0 := hr0 hroot
    rw [Nat.sub_self] at h0
    have := removed_kept h0 (show 0 < c.ins.length - 2 - d0 by omega)
    omega
  · have hd : ∀ q, d0 ≤ q → q < c.ins.length → subDelta rm' q (q - d0) = q - removed rm' (q - d0) := by
      intro a ha ha1
      refine subDelta_eq ?_
      obtain ⟨q, hq⟩ : ∃ q, c.ins.length - d0 = (a - d0) + q := ⟨c.ins.length - d0 - (a - d0), by omega⟩
      have := (removed_add rm' (a - d0) q).1
      rw [← hq] at this
      omega
    have hnew : ∀ (p : Nat) (e : Instr), d0 ≤ p → p + 2 < c.ins.length → rm'[p - d0]? = some false → ins'[p]? = some e →
        (c.ins.take d0 ++ (l ++ [b, a]))[p - removed rm' (p - d0)]? = some ⟨e.lo - removed rm' (e.lo - d0), e.hi - removed rm' (e.hi - d0), e.index⟩ := by
      intro p e hp hp2 hr hpe
      obtain ⟨e', q1, q2, q3, q4, q5⟩ := hdat (p - d0) (by omega) (by rw [hr]; simp)
      rw [show d0 + (p - d0) = p by omega] at q1
      have q1 : ins'[p]? = some e' := q1
      rw [hpe] at q1; cases q1
      rw [← hd _ q2 q3, ← hd _ q4 q5]
      exact hnew0 p e hp hp2 hr hpe
    refine ⟨?_, fun hroot T hT => ?_⟩
    · skip
      refine ⟨by omega, fun i hi1 hi2 => ?_, b, a, ?_, ?_, tb, ta, hab⟩
      · skip
        obtain ⟨j, j1, j2, j3⟩ := hfrom i hi1 hi2 (c.ins.length - 2 - d0) (Nat.le_refl _) (by omega)
        obtain ⟨e0, e, a1, a2, a3, a4⟩ := hm.done (d0 + j) (by omega) (by omega)
        obtain ⟨e0', b1, b2⟩ := hw.cases (i := d0 + j) (by omega) (by omega)
        rw [a1] at b1; cases b1
        rcases b2 with ⟨b1, b2, _⟩ | b2
        rotate_left
        · omega
        rcases a4 with ⟨a4, rfl⟩ | ⟨_, a5, a6, a7, a8, a9, a10, _⟩
        · have := hm.rmhigh j (by omega) (by omega) ⟨_, a1, a4⟩
          rw [j2] at this; cases this
        have hx := hnew (d0 + j) e (by omega) (by omega) (by rw [show d0 + j - d0 = j by omega]; exact j2) a2
        have hle := removed_le rm' j
        rw [show d0 + j - d0 = j by omega, show d0 + j - removed rm' j = i by omega] at hx
        refine ⟨_, hx, by rw [a3]; exact b2, ?_⟩
        have hpos : ∀ q, d0 + j < q → q < c.ins.length → i < q - removed rm' (q - d0) ∧ q - removed rm' (q - d0) < d0 + (l ++ [b, a]).length := by
          intro q hq hq1
          have k1 := removed_kept j2 (show j < q - d0 by omega)
          have k2 := removed_mono (rm := rm') (show q - d0 ≤ c.ins.length - 1 - d0 by omega)
          have k3 := removed_le rm' (q - d0)
          omega
        obtain ⟨p1, p2⟩ := hpos e.lo a5 a6
        obtain ⟨p3, p4⟩ := hpos e.hi a7 a8
        exact ⟨p1, p2, p3, p4⟩
      · rw [show d0 + (l ++ [b, a]).length - 2 = d0 + l.length by omega, hget, List.getElem?_append_right (Nat.le_refl _)]
        simp
      · rw [show d0 + (l ++ [b, a]).length - 1 = d0 + (l.length + 1) by omega, hget, List.getElem?_append_right (by omega)]
        simp
    · have := kept_repr hw hm hnew hsink _ d0 rfl (Nat.le_refl _) (by omega) (hr0 hroot) T hT
      rw [Nat.sub_self, removed_zero, Nat.sub_zero] at this
      exact this
  · -- the last kept inner position
    obtain ⟨j, j1, j2, j3⟩ := hfrom (d0 + l.length - 1) (by omega) (by omega) (c.ins.length - 2 - d0) (Nat.le_refl _) (by omega)
    obtain ⟨e, q1, q2, q3, q4, q5⟩ := hdat j (by omega) (by rw [j2]; simp)
    have q1 : ins'[d0 + j]? = some e := q1
    obtain ⟨e0, e', a1, a2, a3, a4⟩ := hm.done (d0 + j) (by omega) (by omega)
    rw [q1] at a2; cases a2
    rcases a4 with ⟨a4, rfl⟩ | ⟨_, a5, a6, a7, a8, a9, a10, _⟩
    · have := hm.rmhigh j (by omega) (by omega) ⟨_, a1, a4⟩
      rw [j2] at this; cases this
    obtain ⟨e0', b1, b2⟩ := hw.cases (i := d0 + j) (by omega) (by omega)
    rw [a1] at b1; cases b1
    rcases b2 with ⟨b1, b2, _⟩ | b2
    rotate_left
    · omega
    have hx := hnew0 (d0 + j) e (by omega) (by omega) (by rw [show d0 + j - d0 = j by omega]; exact j2) q1
    have hle := removed_le rm' j
    have hrl := removed_le rm' (c.ins.length - 2 - d0)
    rw [show d0 + j - d0 = j by omega, show d0 + j - removed rm' j = d0 + l.length - 1 by omega] at hx
    -- arcs of the last kept inner instruction lead to the sinks
    have hlast : ∀ q, d0 + j < q → q < c.ins.length → rm'[q - d0]? = some false → c.ins.length ≤ q + 2 := by
      intro q h1 h2 h3
      refine Classical.byContradiction fun h4 => ?_
      have k1 := removed_kept j2 (show j < q - d0 by omega)
      have k2 := removed_kept h3 (show q - d0 < c.ins.length - 2 - d0 by omega)
      omega
    have hfar : ∀ q, d0 + j < q → q < c.ins.length → rm'[q - d0]? = some false → d0 + (l ++ [b, a]).length ≤ subDelta rm' q (q - d0) := by
      intro q h1 h2 h3
      have h4 := hlast q h1 h2 h3
      have h5 : removed rm' (q - d0) = removed rm' (c.ins.length - 2 - d0) := by
        rcases (by omega : q = c.ins.length - 2 ∨ q = c.ins.length - 1) with rfl | rfl
        · rfl
        · exact hsucc
      have := subDelta_far (rm := rm') (i := q - d0) (a := q) (n := c.ins.length) (by omega) h4
      omega
    exact ⟨_, _, by omega, by omega, hx, by show _ ≠ _ ∧ _; rw [a3]; exact Instr.inner_of_lt b2, hfar _ a5 a6 a9, hfar _ a7 a8 a10⟩
end

end LBDD
