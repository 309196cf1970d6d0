import Verif.Proof.Coll.Same
/-! `bdd_collection::rebase`. -/
namespace LBDD

/-- Effect of `rebase` on one instruction. -/
def reb (look : Nat → Option Nat) (e : Instr) : Instr := if e.isTerm then e else { e with index := (look e.index).getD e.index }

theorem rebaseIns_ok {cfg : Cfg} {look : Nat → Option Nat} : ∀ (n i : Nat) (c : Coll),
    (∀ k : Nat, i ≤ k → k < i + n → ∃ e, c.ins[k]? = some e ∧ (e.isTerm = false → ∃ w, look e.index = some w)) →
    ∃ ins', rebaseIns cfg look n i c = .ok () { c with ins := ins' } ∧ ins'.length = c.ins.length ∧
      ∀ k : Nat, ins'[k]? = if i ≤ k ∧ k < i + n then (c.ins[k]?).map (reb look) else c.ins[k]?
  | 0, i, c, _ => ⟨c.ins, rfl, rfl, fun k => by rw [if_neg (by omega)]⟩
  | n + 1, i, c, h => by
    obtain ⟨e, he, hw⟩ := h i (Nat.le_refl _) (by omega)
    unfold rebaseIns
    rw [M.bind_ok (insAt_ok he)]
    cases ht : e.isTerm with
    | true =>
      simp only [if_true]
      obtain ⟨ins', h1, h2, h3⟩ := rebaseIns_ok (cfg := cfg) (look := look) n (i + 1) c (fun k a b => h k (by omega) (by omega))
      refine ⟨ins', h1, h2, ?_⟩
      intro k
      rw [h3]
      by_cases hk : i + 1 ≤ k ∧ k < i + 1 + n
      · rw [if_pos hk, if_pos (by omega)]
      · rw [if_neg hk]
        by_cases hk' : k = i
        · subst hk'
          rw [if_pos (by omega), he]
          simp [reb, ht]
        · rw [if_neg (by omega)]
    | false =>
      obtain ⟨w, hw⟩ := hw ht
      simp only [Bool.false_eq_true, if_false, hw]
      rw [M.bind_ok (show (M.modify _ : M Coll Unit) c = .ok () { c with ins := c.ins.set i { e with index := w } } from rfl)]
      have hil := lt_of_get he
      obtain ⟨ins', h1, h2, h3⟩ := rebaseIns_ok (cfg := cfg) (look := look) n (i + 1) { c with ins := c.ins.set i { e with index := w } } (by
        intro k a b
        show ∃ e', (c.ins.set i { e with index := w })[k]? = some e' ∧ _
        rw [List.getElem?_set_ne (by omega)]
        exact h k (by omega) (by omega))
      refine ⟨ins', h1, ?_, ?_⟩
      · rw [h2]; simp
      · intro k
        rw [h3]
        show (if _ then Option.map (reb look) (c.ins.set i { e with index := w })[k]? else (c.ins.set i { e with index := w })[k]?) = _
        by_cases hk' : k = i
        · subst hk'
          rw [if_neg (by omega), if_pos (by omega), he, List.getElem?_set_self hil]
          simp [reb, ht, hw]
        · rw [List.getElem?_set_ne (fun h => hk' h.symm)]
          by_cases hk : i + 1 ≤ k ∧ k < i + 1 + n
          · rw [if_pos hk, if_pos (by omega)]
          · rw [if_neg hk, if_neg (by omega)]

/-- `c'` is `c` with the variables of entry `nr` renamed by `ρ`. -/
structure Rebased (c c' : Coll) (nr : Nat) (ρ : Nat → Nat) : Prop where
  del : c'.del = c.del
  inv : CInv c'
  others : ∀ k, k < c.nrBdds → k ≠ nr → SameEntry c k c' k
  repr : ∀ d0 t, c.del[nr]? = some d0 → CRepr c.ins d0 t → CRepr c'.ins d0 (t.ren ρ)
  instrs : ∀ i e', c'.At nr i e' ↔ ∃ e, c.At nr i e ∧ e'.lo = e.lo ∧ e'.hi = e.hi ∧ (e.Inner → e'.index = ρ e.index) ∧ (¬ e.Inner → e'.index = e.index)

/-- Entries are consecutive stretches. -/
theorem CInv.mono {c : Coll} (hc : CInv c) : ∀ {n i d d' : Nat}, c.del[i]? = some d → c.del[i + n]? = some d' → d ≤ d'
  | 0, i, d, d', h, h' => by
    rw [Nat.add_zero, h] at h'; cases h'; exact Nat.le_refl _
  | n + 1, i, d, d', h, h' => by
    have hlt := lt_of_get h'
    have hl := (getLast_length_del hc).2
    obtain ⟨a, b, he, hw⟩ := hc.wf (i + n) (by omega)
    have h1 := CInv.mono hc h he.1
    have : b = d' := by have := he.2; rw [Nat.add_assoc, h'] at this; injection this with this; exact this.symm
    have := hw.two
    omega

theorem CInv.disjoint {c : Coll} (hc : CInv c) {i j a b a' b' : Nat} (h : c.Entry i a b) (h' : c.Entry j a' b') (hij : i ≠ j) : b ≤ a' ∨ b' ≤ a := by
  rcases Nat.lt_or_gt_of_ne hij with h1 | h1
  · left
    refine hc.mono (n := j - (i + 1)) h.2 ?_
    rw [show i + 1 + (j - (i + 1)) = j by omega]; exact h'.1
  · right
    refine hc.mono (n := i - (j + 1)) h'.2 ?_
    rw [show j + 1 + (i - (j + 1)) = i by omega]; exact h.1

theorem cRebase_ok {cfg : Cfg} {look : Nat → Option Nat} {c : Coll} {nr : Nat} (hc : CInv c) (hn : nr < c.nrBdds)
    (hv : ∀ v, c.Var nr v → ∃ w, look v = some w ∧ w < cBot) :
    ∃ c', cRebase cfg nr look c = .ok () c' ∧ Rebased c c' nr (fun v => (look v).getD v) := by
  obtain ⟨d0, d1, he, hw⟩ := hc.wf nr hn
  have h2 := hw.two
  unfold cRebase
  rw [M.get_bind_apply, M.assert_bind_apply (by simpa using hn)]
  rw [M.bind_ok (show dlm nr c = .ok d0 c by unfold dlm; rw [he.1]), M.bind_ok (show dlm (nr + 1) c = .ok d1 c by unfold dlm; rw [he.2])]
  have hvar : ∀ i e, d0 ≤ i → i < d1 → c.ins[i]? = some e → e.Inner → ∃ w, look e.index = some w ∧ w < cBot :=
    fun i e a b h hin => hv e.index ⟨i, e, ⟨d0, d1, he, a, b, h⟩, hin, rfl⟩
  obtain ⟨ins', r1, r2, r3⟩ := rebaseIns_ok (cfg := cfg) (look := look) (d1 - d0) d0 c (by
    intro k a b
    obtain ⟨e, hke, hcs⟩ := hw.cases a (by omega)
    refine ⟨e, hke, fun ht => ?_⟩
    have hii := hw.inner_iff a (by omega) hke
    have hin : e.Inner := hii.1.2 (by
      rcases Nat.lt_or_ge (k + 2) d1 with h | h
      · exact h
      · rw [hii.2.2 h] at ht; cases ht)
    obtain ⟨w, hw1, _⟩ := hvar k e a (by omega) hke hin
    exact ⟨w, hw1⟩)
  -- one instruction
  have hreb : ∀ i e, d0 ≤ i → i < d1 → c.ins[i]? = some e → ins'[i]? = some (reb look e) ∧
      (e.Inner → ∃ w, look e.index = some w ∧ w < cBot ∧ reb look e = { e with index := w }) ∧ (¬ e.Inner → reb look e = e) := by
    intro i e a b h
    have hii := hw.inner_iff a b h
    refine ⟨by rw [r3, if_pos (by omega), h]; rfl, ?_, ?_⟩
    · intro hin
      obtain ⟨w, hw1, hw2⟩ := hvar i e a b h hin
      refine ⟨w, hw1, hw2, ?_⟩
      have : e.isTerm = false := by
        cases ht : e.isTerm with
        | false => rfl
        | true => have := hii.2.1 ht; have := hii.1.1 hin; omega
      simp [reb, this, hw1]
    · intro hin
      have : e.isTerm = true := hii.2.2 (by
        rcases Nat.lt_or_ge (i + 2) d1 with h | h
        · exact absurd (hii.1.2 h) hin
        · exact h)
      simp [reb, this]
  have hout : ∀ i, ¬ (d0 ≤ i ∧ i < d1) → ins'[i]? = c.ins[i]? := by
    intro i h; rw [r3, if_neg (by omega)]
  have hwf : WfRange ins' d0 d1 := by
    refine ⟨h2, ?_, ?_⟩
    · intro i a b
      obtain ⟨e, k1, k2, k3, k4, k5, k6, k7⟩ := hw.inner i a b
      obtain ⟨q1, q2, _⟩ := hreb i e a (by omega) k1
      obtain ⟨w, _, q3, q4⟩ := q2 (Instr.inner_of_lt k2)
      exact ⟨_, q1, by rw [q4]; exact ⟨q3, k3, k4, k5, k6, k7⟩⟩
    · obtain ⟨a, b, ha, hb, g⟩ := hw.sinks
      have n1 : ¬ a.Inner := by
        intro h
        rcases g.2.2 with ⟨h5, _⟩ | ⟨h5, _⟩
        · exact h.1 h5
        · exact h.2 h5
      have n2 : ¬ b.Inner := by
        intro h
        rcases g.2.2 with ⟨_, h5⟩ | ⟨_, h5⟩
        · exact h.2 h5
        · exact h.1 h5
      obtain ⟨q1, _, q2⟩ := hreb _ a (by omega) (by omega) ha
      obtain ⟨q3, _, q4⟩ := hreb _ b (by omega) (by omega) hb
      rw [q2 n1] at q1
      rw [q4 n2] at q3
      exact ⟨a, b, q1, q3, g⟩
  have hent : ({ c with ins := ins' } : Coll).Entry nr d0 d1 := he
  have hothers : ∀ k, k < c.nrBdds → k ≠ nr → SameEntry c k { c with ins := ins' } k := by
    intro k hk hne
    obtain ⟨a, b, hke, hkw⟩ := hc.wf k hk
    refine .of_eq hkw hke hke ?_
    intro i h1 h2
    refine hout i ?_
    have := hc.disjoint hke he hne
    omega
  refine ⟨_, r1, rfl, ?_, hothers, ?_, ?_⟩
  · refine ⟨hc.first, ?_, ?_, hc.stack, hc.gen, hc.red, hc.nrh⟩
    · show c.del.getLast? = some ins'.length
      rw [r2]; exact hc.last
    · intro k hk
      by_cases hkn : k = nr
      · subst hkn; exact ⟨d0, d1, hent, hwf⟩
      · exact (hothers k hk hkn).wf (hc.wf k hk)
  · intro d t hd ht
    have : d = d0 := by have := he.1; rw [hd] at this; injection this
    subst this
    refine CRepr.map (ins := c.ins) (ins' := ins') (fun i => d ≤ i ∧ i < d1) (fun i => i) _ ?_ ?_ ht ⟨Nat.le_refl _, by omega⟩
    · intro i e hp hi hn
      obtain ⟨q1, _, q2⟩ := hreb i e hp.1 hp.2 hi
      exact ⟨_, q1, by rw [q2 hn]⟩
    · intro i e hp hi hn
      obtain ⟨q1, q2, _⟩ := hreb i e hp.1 hp.2 hi
      obtain ⟨w, w1, w2, w3⟩ := q2 hn
      have := hw.node hp.1 hp.2 hi hn
      refine ⟨by omega, by omega, _, q1, ?_, ?_, ?_, ?_⟩ <;> rw [w3]
      · exact Instr.inner_of_lt w2
      · simp [w1]
  · intro i e'
    constructor
    · rintro ⟨a, b, h1, h2, h3, h4⟩
      obtain ⟨rfl, rfl⟩ := hent.unique h1
      have h4 : ins'[i]? = some e' := h4
      obtain ⟨e, hie, _⟩ := hw.cases h2 h3
      obtain ⟨q1, q2, q3⟩ := hreb i e h2 h3 hie
      rw [h4] at q1; cases q1
      refine ⟨e, ⟨d0, d1, he, h2, h3, hie⟩, ?_⟩
      by_cases hin : e.Inner
      · obtain ⟨w, w1, w2, w3⟩ := q2 hin
        rw [w3]; exact ⟨rfl, rfl, fun _ => by simp [w1], fun h => absurd hin h⟩
      · rw [q3 hin]; exact ⟨rfl, rfl, fun h => absurd h hin, fun _ => rfl⟩
    · rintro ⟨e, ⟨a, b, h1, h2, h3, h4⟩, l1, l2, l3, l4⟩
      obtain ⟨rfl, rfl⟩ := he.unique h1
      obtain ⟨q1, q2, q3⟩ := hreb i e h2 h3 h4
      refine ⟨d0, d1, hent, h2, h3, ?_⟩
      show ins'[i]? = _
      rw [q1]
      by_cases hin : e.Inner
      · obtain ⟨w, w1, w2, w3⟩ := q2 hin
        have := l3 hin
        rw [w3]
        cases e'
        simp only [w1, Option.getD_some] at *
        subst_vars; rfl
      · have := l4 hin
        rw [q3 hin]
        cases e; cases e'
        simp only at *
        subst_vars; rfl

end LBDD
