import Verif.Proof.Coll.Remove
/-! Queries on entries. -/
namespace LBDD

/-- The instructions of an entry. -/
def seg (c : Coll) (d0 d1 : Nat) : List Instr := (c.ins.drop d0).take (d1 - d0)

theorem seg_get {c : Coll} {d0 d1 i : Nat} (h : i < d1 - d0) : (seg c d0 d1)[i]? = c.ins[d0 + i]? := by
  unfold seg
  rw [List.getElem?_take, if_pos h, List.getElem?_drop]

theorem seg_length {c : Coll} {d0 d1 : Nat} (h : d1 ≤ c.ins.length) : (seg c d0 d1).length = d1 - d0 := by
  unfold seg; simp; omega

theorem seg_at {c : Coll} {nr d0 d1 : Nat} (he : c.Entry nr d0 d1) (hl : d1 ≤ c.ins.length) (i : Nat) (e : Instr) :
    (seg c d0 d1)[i]? = some e ↔ c.At nr (d0 + i) e := by
  constructor
  · intro h
    have := lt_of_get h
    rw [seg_length hl] at this
    rw [seg_get this] at h
    exact ⟨d0, d1, he, by omega, by omega, h⟩
  · rintro ⟨a, b, h1, h2, h3, h4⟩
    obtain ⟨rfl, rfl⟩ := he.unique h1
    rw [seg_get (by omega)]; exact h4

/-- Positions of the elements satisfying `p`. -/
theorem filter_positions (p : Instr → Bool) (l : List Instr) (d : Nat) :
    ∃ ps : List Nat, ps.Nodup ∧ (∀ j, j ∈ ps ↔ d ≤ j ∧ ∃ e, l[j - d]? = some e ∧ p e = true) ∧ ps.length = (l.filter p).length := by
  induction l generalizing d with
  | nil => exact ⟨[], List.nodup_nil, by simp, rfl⟩
  | cons e l ih =>
    obtain ⟨ps, h1, h2, h3⟩ := ih (d + 1)
    have key : ∀ j, j ∈ ps ↔ d + 1 ≤ j ∧ ∃ e', (e :: l)[j - d]? = some e' ∧ p e' = true := by
      intro j
      rw [h2]
      constructor
      · rintro ⟨a, e', b, c⟩
        refine ⟨a, e', ?_, c⟩
        rw [show j - d = (j - (d + 1)) + 1 by omega, List.getElem?_cons_succ]; exact b
      · rintro ⟨a, e', b, c⟩
        refine ⟨a, e', ?_, c⟩
        rw [show j - d = (j - (d + 1)) + 1 by omega, List.getElem?_cons_succ] at b; exact b
    cases hp : p e with
    | true =>
      refine ⟨d :: ps, ?_, ?_, by simp [hp, h3]⟩
      · rw [List.nodup_cons]
        exact ⟨fun h => by have := ((key d).1 h).1; omega, h1⟩
      · intro j
        rw [List.mem_cons, key]
        constructor
        · rintro (rfl | ⟨a, b⟩)
          · exact ⟨Nat.le_refl _, e, by simp, hp⟩
          · exact ⟨by omega, b⟩
        · rintro ⟨a, b⟩
          rcases Nat.eq_or_lt_of_le a with h | h
          · exact Or.inl h.symm
          · exact Or.inr ⟨h, b⟩
    | false =>
      refine ⟨ps, h1, ?_, by simp [hp, h3]⟩
      intro j
      rw [key]
      constructor
      · rintro ⟨a, b⟩; exact ⟨by omega, b⟩
      · rintro ⟨a, e', b, c⟩
        rcases Nat.eq_or_lt_of_le a with h | h
        · subst h
          simp at b; subst b; rw [hp] at c; cases c
        · exact ⟨h, e', b, c⟩

section
variable {cfg : Cfg} {c : Coll} {nr d0 d1 : Nat}

theorem entry_seg (hc : CInv c) (he : c.Entry nr d0 d1) : WfRange c.ins d0 d1 ∧ d1 ≤ c.ins.length := by
  have := (hc.wf nr he.lt).entry he
  exact ⟨this, this.len⟩

theorem dlm_ok0 (he : c.Entry nr d0 d1) : dlm nr c = .ok d0 c := by unfold dlm; rw [he.1]
theorem dlm_ok1 (he : c.Entry nr d0 d1) : dlm (nr + 1) c = .ok d1 c := by unfold dlm; rw [he.2]

theorem cNrNodes_ok (he : c.Entry nr d0 d1) : cNrNodes cfg nr c = .ok (d1 - d0) c := by
  unfold cNrNodes
  rw [M.get_bind_apply, M.assert_bind_apply (by simpa using he.lt), M.bind_ok (dlm_ok1 he), M.bind_ok (dlm_ok0 he)]
  rfl

theorem cNrNodesVar_ok (hc : CInv c) (he : c.Entry nr d0 d1) (v : Nat) :
    cNrNodesVar cfg nr v c = .ok ((seg c d0 d1).filter (fun e => e.index == v)).length c := by
  obtain ⟨hw, hl⟩ := entry_seg hc he
  have := hw.two
  unfold cNrNodesVar
  rw [M.get_bind_apply, M.assert_bind_apply (by simpa using he.lt), M.bind_ok (dlm_ok0 he), M.bind_ok (dlm_ok1 he),
    M.bind_ok (insRange_ok _ _ (by omega))]
  rfl

theorem pushVars_mem : ∀ (l : List Instr) (acc : List Nat) (v : Nat), v ∈ pushVars l acc ↔ v ∈ acc ∨ ∃ e ∈ l, e.index = v
  | [], acc, v => by simp [pushVars]
  | e :: l, acc, v => by
    unfold pushVars
    rw [pushVars_mem l]
    by_cases h : acc.getLast? = some e.index
    · rw [if_pos h]
      have hm : e.index ∈ acc := List.mem_of_getLast? h
      constructor
      · rintro (h1 | ⟨e', h1, h2⟩)
        · exact Or.inl h1
        · exact Or.inr ⟨e', by simp [h1], h2⟩
      · rintro (h1 | ⟨e', h1, h2⟩)
        · exact Or.inl h1
        · rcases List.mem_cons.1 h1 with rfl | h1
          · exact Or.inl (h2 ▸ hm)
          · exact Or.inr ⟨e', h1, h2⟩
    · rw [if_neg h]
      simp only [List.mem_append, List.mem_cons, List.not_mem_nil, or_false]
      constructor
      · rintro ((h1 | h1) | ⟨e', h1, h2⟩)
        · exact Or.inl h1
        · exact Or.inr ⟨e, Or.inl rfl, h1.symm⟩
        · exact Or.inr ⟨e', Or.inr h1, h2⟩
      · rintro (h1 | ⟨e', rfl | h1, h2⟩)
        · exact Or.inl (Or.inl h1)
        · exact Or.inl (Or.inr h2.symm)
        · exact Or.inr ⟨e', h1, h2⟩

/-- The inner instructions of an entry. -/
theorem inner_seg (hc : CInv c) (he : c.Entry nr d0 d1) (v : Nat) : (∃ e ∈ seg c d0 (d1 - 2), e.index = v) ↔ c.Var nr v := by
  obtain ⟨hw, hl⟩ := entry_seg hc he
  have h2 := hw.two
  constructor
  · rintro ⟨e, hm, rfl⟩
    obtain ⟨i, hi⟩ := List.mem_iff_getElem?.1 hm
    have hlt := lt_of_get hi
    rw [seg_length (by omega)] at hlt
    rw [seg_get hlt] at hi
    exact ⟨d0 + i, e, ⟨d0, d1, he, by omega, by omega, hi⟩, (hw.inner_iff (by omega) (by omega) hi).1.2 (by omega), rfl⟩
  · rintro ⟨i, e, ⟨a, b, h1, h3, h4, h5⟩, hin, rfl⟩
    obtain ⟨rfl, rfl⟩ := he.unique h1
    have hn := hw.node h3 h4 h5 hin
    refine ⟨e, List.mem_iff_getElem?.2 ⟨i - d0, ?_⟩, rfl⟩
    rw [seg_get (by omega), show d0 + (i - d0) = i by omega]; exact h5

theorem cVariables_ok (hc : CInv c) (he : c.Entry nr d0 d1) (hb : cfg.ndebug = true ∨ d0 + 2 < d1) :
    ∃ vs, cVariables cfg nr c = .ok vs c ∧ vs.Pairwise (· < ·) ∧ ∀ v, v ∈ vs ↔ c.Var nr v := by
  obtain ⟨hw, hl⟩ := entry_seg hc he
  have h2 := hw.two
  unfold cVariables
  rw [M.get_bind_apply, M.assert_bind_apply (by simpa using he.lt), M.bind_ok (dlm_ok0 he), M.bind_ok (dlm_ok1 he),
    M.bind_ok (insRange_ok (d1 - 2 - d0) d0 (by omega))]
  have hm : ∀ v, v ∈ pushVars (seg c d0 (d1 - 2)) [] ↔ c.Var nr v := by
    intro v
    rw [pushVars_mem, ← inner_seg hc he]; simp
  have hass : (M.assert cfg.ndebug (decide (pushVars (List.take (d1 - 2 - d0) (List.drop d0 c.ins)) [] ≠ [])) : M Coll Unit) c = .ok () c := by
    unfold M.assert
    rcases hb with h | h
    · simp [h]
    · have : pushVars (List.take (d1 - 2 - d0) (List.drop d0 c.ins)) [] ≠ [] := by
        obtain ⟨e, h1, h3, _⟩ := hw.inner d0 (Nat.le_refl _) h
        have := (hm e.index).2 ⟨d0, e, ⟨d0, d1, he, Nat.le_refl _, by omega, h1⟩, Instr.inner_of_lt h3, rfl⟩
        exact List.ne_nil_of_mem this
      simp [this]
  rw [M.bind_ok hass]
  refine ⟨_, rfl, sortUniq_sorted _, ?_⟩
  intro v
  rw [sortUniq_mem]
  exact hm v

theorem sum_filter (l : List Instr) : ∀ (vs : List Nat), vs.Nodup →
    (vs.map fun v => (l.filter (fun e => e.index == v)).length).sum = (l.filter (fun e => vs.contains e.index)).length
  | [], _ => by
    have : (l.filter (fun e => ([] : List Nat).contains e.index)) = [] := List.filter_eq_nil_iff.2 (by simp)
    rw [this]; rfl
  | v :: vs, h => by
    rw [List.nodup_cons] at h
    rw [List.map_cons, List.sum_cons, sum_filter l vs h.2]
    induction l with
    | nil => rfl
    | cons e l ih =>
      simp only [List.filter_cons, List.contains_cons] at ih ⊢
      cases A : (e.index == v) with
      | true =>
        have e1 : e.index = v := by simpa using A
        have B : vs.contains e.index = false := by
          cases hB : vs.contains e.index with
          | false => rfl
          | true => rw [e1] at hB; exact absurd (by simpa using hB) h.1
        simp only [B, Bool.or_false, if_true, Bool.false_eq_true, if_false, List.length_cons]
        omega
      | false =>
        cases B : vs.contains e.index with
        | true => simp only [Bool.or_true, if_true, Bool.false_eq_true, if_false, List.length_cons]; omega
        | false => simp only [Bool.or_false, Bool.false_eq_true, if_false]; omega

end
end LBDD
