import Verif.Proof.Coll.ReduceAny
import Verif.Props.CollOrVar
/-!
# Disjunction with literals when `reduce` has something to remove (C50)
-/
namespace LBDD
section
variable {cfg : Cfg} {c c' : Coll} {i d0 d1 : Nat} {pos neg : List Nat}

section
variable {t : Nat} {et : Instr}

/-- The true sink is unique. -/
theorem topAt_iff (he : c.Entry i d0 d1) (hw : WfRange c.ins d0 d1) (h0 : d0 ≤ t) (h2 : t < d1) (h3 : c.ins[t]? = some et) (h4 : et.index = cTop) (p : Nat) :
    c.TopAt i p ↔ p = t := by
  constructor
  · rintro ⟨e, ⟨a, b, hab, h5, h6, h7⟩, h8⟩
    obtain ⟨rfl, rfl⟩ := he.unique hab
    have hi : ∀ (q : Nat) (e : Instr), d0 ≤ q → q < d1 → c.ins[q]? = some e → e.index = cTop → d1 ≤ q + 2 := by
      intro q e h1 h2 h3 h4
      obtain ⟨e', x1, x2⟩ := hw.cases h1 h2
      rw [h3] at x1; cases x1
      rcases x2 with x2 | x2
      · have := cBot_lt_cTop; omega
      · exact x2.1
    have k1 := hi p e h5 h6 h7 h8
    have k2 := hi t et h0 h2 h3 h4
    obtain ⟨x, y, hx, hy, _, _, hxy⟩ := hw.sinks
    have hcases : (p = d1 - 2 ∨ p = d1 - 1) ∧ (t = d1 - 2 ∨ t = d1 - 1) := by omega
    have hne := cBot_ne_cTop
    rcases hcases with ⟨rfl | rfl, rfl | rfl⟩ <;> try rfl
    · rw [hx] at h7; cases h7
      rw [hy] at h3; cases h3
      rcases hxy with ⟨g1, g2⟩ | ⟨g1, g2⟩
      · exact absurd (g1.symm.trans h8) hne
      · exact absurd (g2.symm.trans h4) hne
    · rw [hy] at h7; cases h7
      rw [hx] at h3; cases h3
      rcases hxy with ⟨g1, g2⟩ | ⟨g1, g2⟩
      · exact absurd (g1.symm.trans h4) hne
      · exact absurd (g2.symm.trans h8) hne
  · rintro rfl
    exact ⟨et, ⟨d0, d1, he, h0, h2, h3⟩, h4⟩

theorem or_weak (hw : WfRange c.ins d0 d1) (h1 : d1 ≤ t + 2) (h2 : t < d1) :
    WeakRange (append c (orIns c d0 d1 pos neg (t + (c.ins.length - d0)))).ins c.ins.length (c.ins.length + (d1 - d0)) := by
  have hlen := hw.len
  have two := hw.two
  refine ⟨by omega, fun k hk0 hk1 => ?_, ?_⟩
  · obtain ⟨e, a, b1, b2, b3, b4, b5, b6⟩ := hw.inner (k - (c.ins.length - d0)) (by omega) (by omega)
    have hg := orIns_get (pos := pos) (neg := neg) hw (t + (c.ins.length - d0)) (by omega) (by omega) a
    rw [show k - (c.ins.length - d0) + (c.ins.length - d0) = k by omega, reroute_node b2] at hg
    refine ⟨_, hg, b1, ?_⟩
    show k < (if e.index ∈ neg then t + (c.ins.length - d0) else e.lo + (c.ins.length - d0)) ∧
        (if e.index ∈ neg then t + (c.ins.length - d0) else e.lo + (c.ins.length - d0)) < _ ∧
        k < (if e.index ∈ pos then t + (c.ins.length - d0) else e.hi + (c.ins.length - d0)) ∧
        (if e.index ∈ pos then t + (c.ins.length - d0) else e.hi + (c.ins.length - d0)) < _
    refine ⟨?_, ?_, ?_, ?_⟩ <;> split <;> omega
  · obtain ⟨a, b, ha, hb, ta, tb, h⟩ := hw.sinks
    have g1 := orIns_get (pos := pos) (neg := neg) hw (t + (c.ins.length - d0)) (by omega) (by omega) ha
    have g2 := orIns_get (pos := pos) (neg := neg) hw (t + (c.ins.length - d0)) (by omega) (by omega) hb
    rw [reroute_sink ta, show d1 - 2 + (c.ins.length - d0) = c.ins.length + (d1 - d0) - 2 by omega] at g1
    rw [reroute_sink tb, show d1 - 1 + (c.ins.length - d0) = c.ins.length + (d1 - d0) - 1 by omega] at g2
    exact ⟨a, b, g1, g2, ta, tb, h⟩

/-- The copy of an inner node has two equal arcs exactly when both lead to the true sink. -/
theorem redundant_iff (he : c.Entry i d0 d1) (hw : WfRange c.ins d0 d1) (h0 : d0 ≤ t) (h2 : t < d1) (h3 : c.ins[t]? = some et) (h4 : et.index = cTop) {p : Nat}
    (hp0 : d0 ≤ p) (hp1 : p + 2 < d1) :
    Redundant (append c (orIns c d0 d1 pos neg (t + (c.ins.length - d0)))).ins (p + (c.ins.length - d0)) ↔ c.BothTop i pos neg p := by
  obtain ⟨e, a, b1, b2, b3, b4, b5, b6⟩ := hw.inner p hp0 hp1
  have hg := orIns_get (pos := pos) (neg := neg) hw (t + (c.ins.length - d0)) hp0 (by omega) a
  rw [reroute_node b2] at hg
  have htop := topAt_iff he hw h0 h2 h3 h4
  have hat : c.At i p e := ⟨d0, d1, he, hp0, by omega, a⟩
  have hin := Instr.inner_of_lt b1
  constructor
  · rintro ⟨e', g1, g2⟩
    rw [hg] at g1; cases g1
    refine ⟨e, hat, hin, ?_⟩
    rw [htop, htop]
    dsimp only at g2
    by_cases hn : e.index ∈ neg <;> by_cases hq : e.index ∈ pos <;> simp only [hn, hq, if_true, if_false] at g2 <;> simp only [hn, hq, true_or, false_or, true_and, and_true]
    · omega
    · omega
    · omega
  · rintro ⟨e', g1, g2, g3, g4⟩
    obtain ⟨_, _, _, _, _, g1⟩ := g1
    rw [a] at g1; cases g1
    refine ⟨_, hg, ?_⟩
    dsimp only
    rw [htop] at g3 g4
    by_cases hn : e.index ∈ neg <;> by_cases hq : e.index ∈ pos <;> simp only [hn, hq, true_or, false_or] at g3 g4 <;> simp only [hn, hq, if_true, if_false]
    · rw [g4]
    · rw [g3]
    · omega
end

/-- `is_bdd` notices an arc past the end of the entry. -/
theorem isBddLoop_far {c : Coll} {d0 d1 j : Nat} {e : Instr} (he : c.ins[j]? = some e) (hf : d1 ≤ e.lo) : ∀ (n i : Nat) (seen : List Instr), i ≤ j → j < i + n →
    isBddLoop c d0 d1 n i seen = false
  | 0, i, _, h1, h2 => by omega
  | n + 1, i, seen, h1, h2 => by
    by_cases hij : i = j
    · subst hij
      unfold isBddLoop
      rw [he]
      simp [hf]
    · unfold isBddLoop
      split
      · rfl
      · repeat' (first | rfl | split)
        exact isBddLoop_far he hf n _ _ (by omega) (by omega)

theorem isBdd_far {c : Coll} {nr d0 d1 j : Nat} {e : Instr} (hent : c.Entry nr d0 d1) (h0 : d0 ≤ j) (h1 : j + 2 < d1) (he : c.ins[j]? = some e) (hf : d1 ≤ e.lo) :
    c.isBdd nr = false := by
  unfold Coll.isBdd
  rw [hent.1, hent.2]
  dsimp only
  repeat' (first | rfl | split)
  exact isBddLoop_far he hf _ _ _ h0 (by omega)

/-- Everything about a call of `bdd_or_var` that returns, when the root stays. -/
theorem orVar_returns (hC : CReachable cfg c) (hi : i < c.nrBdds) (hroot : ∀ d, c.del[i]? = some d → ¬ c.BothTop i pos neg d)
    (honly : ∀ d e j e', c.del[i]? = some d → c.ins[d]? = some e → c.At i j e' → e'.Inner → e'.index = e.index → j = d)
    {nr : Nat} (hrun : bddOrVar cfg i pos neg c = .ok nr c') :
    ∃ d0 d1 xs, c.Entry i d0 d1 ∧ nr = c.nrBdds ∧ CInv c ∧ c' = append c xs ∧ xs.length ≤ d1 - d0 ∧
      (d1 - d0 < xs.length + 128 → ∀ x, CCovers c i x → ∃ b, cEvaluate cfg c' c.nrBdds x = .ok b () ∧
        (b = true ↔ cEvaluate cfg c i x = .ok true () ∨ (∃ v, v ∈ pos ∧ c.Tests i x v ∧ x[v]? = some true) ∨
          ∃ v, v ∈ neg ∧ c.Tests i x v ∧ x[v]? = some false)) ∧
      (xs.length + 128 ≤ d1 - d0 → cfg.ndebug = true ∧ ∃ j e, c'.At c.nrBdds j e ∧ e.Inner ∧ c'.ins.length ≤ e.lo ∧ c'.ins.length ≤ e.hi) := by
  have hc := hC.inv
  obtain ⟨d0, d1, he, hw⟩ := hc.wf i hi
  obtain ⟨t, et, a1, a2, a3, a4, a5, a6, e⟩ := bddOrVar_run (cfg := cfg) (pos := pos) (neg := neg) hc he
  rw [e] at hrun
  have hlen := hw.len
  have two := hw.two
  have hol := orIns_length (pos := pos) (neg := neg) hw (t + (c.ins.length - d0))
  generalize hys : orIns c d0 d1 pos neg (t + (c.ins.length - d0)) = ys at *
  have hil : (append c ys).ins.length = c.ins.length + (d1 - d0) := by
    show (c.ins ++ _).length = _
    rw [List.length_append, hol]
  obtain ⟨u, c1, h1, h2⟩ := M.ok_bind hrun
  rw [M.get_bind_apply] at h2
  have h3 := assert_bind_inv h2
  have hnr : nr = c.nrBdds ∧ c' = c1 := by
    cases h3; exact ⟨rfl, rfl⟩
  obtain ⟨rfl, rfl⟩ := hnr
  have hent := append_entry (xs := ys) hc
  rw [hol] at hent
  have hweak := or_weak (pos := pos) (neg := neg) hw a2 a3
  rw [hys] at hweak
  obtain ⟨_, xs, k, x1, xk, xd, x4, x23, x5⟩ := reduceLast_ok (append_nrBdds hc) (by rw [hil]; exact hent) (by rw [hil]; exact hweak) (by omega) h1
  have htake : (append c ys).ins.take c.ins.length = c.ins := by simp [append]
  rw [htake] at x1 x23 x5
  rw [hil] at xk
  have hdel : (append c ys).del.set (c.nrBdds + 1) (c.ins.length + xs.length) = c.del ++ [c.ins.length + xs.length] := by
    have := (getLast_length_del hc).2
    show (c.del ++ [_]).set _ _ = _
    rw [List.set_append_right _ _ (by omega), this, Nat.sub_self]
    rfl
  rw [hdel] at x1
  have hc' : c' = append c xs := x1
  subst hc'
  -- the copy of an instruction
  have hcopy : ∀ (j : Nat) (e : Instr), c.ins.length ≤ j → j < c.ins.length + (d1 - d0) → (append c ys).ins[j]? = some e →
      ∃ e', c.At i (j - (c.ins.length - d0)) e' ∧ e'.index = e.index ∧ (e'.Inner ↔ e.Inner) := by
    clear x23 x5 x4
    intro j e hj0 hj1 hj
    obtain ⟨e', x1, x2⟩ := hw.cases (i := j - (c.ins.length - d0)) (by omega) (by omega)
    have hg := orIns_get (pos := pos) (neg := neg) hw (t + (c.ins.length - d0)) (by omega) (by omega) x1
    rw [hys, show j - (c.ins.length - d0) + (c.ins.length - d0) = j by omega, hj] at hg
    cases hg
    refine ⟨e', ⟨d0, d1, he, by omega, by omega, x1⟩, ?_, ?_⟩
    · rcases x2 with x2 | x2
      · rw [reroute_node x2.2.2.1]
      · rw [reroute_sink x2.2.1]
    · rcases x2 with x2 | x2
      · rw [reroute_node x2.2.2.1]; exact Iff.rfl
      · rw [reroute_sink x2.2.1]
  have hroot' : c.ins.length + 2 < (append c ys).ins.length → ¬ Redundant (append c ys).ins c.ins.length ∧ ∀ (j : Nat) (e : Instr), c.ins.length < j →
      (append c ys).ins[c.ins.length]? = some e → (append c ys).ins[j]? ≠ some e := by
    intro hd
    rw [hil] at hd
    have hr := redundant_iff (pos := pos) (neg := neg) he hw a1 a3 a4 a5 (Nat.le_refl d0) (by omega)
    rw [hys, show d0 + (c.ins.length - d0) = c.ins.length by omega] at hr
    refine ⟨fun h => hroot d0 he.1 (hr.1 h), fun j e hj h1 h2 => ?_⟩
    have hj1 : j < c.ins.length + (d1 - d0) := by have := lt_of_get h2; omega
    obtain ⟨e1, k1, k2, k3⟩ := hcopy _ _ (Nat.le_refl _) (by omega) h1
    obtain ⟨e2, l1, l2, l3⟩ := hcopy _ _ (by omega) hj1 h2
    obtain ⟨e3, m1, m2, m3⟩ := hweak.inner c.ins.length (Nat.le_refl _) (by omega)
    rw [h1] at m1; cases m1
    have hin := Instr.inner_of_lt m2
    obtain ⟨_, _, hab, _, _, k1⟩ := k1
    rw [show c.ins.length - (c.ins.length - d0) = d0 by omega] at k1
    have := honly d0 e1 _ e2 he.1 k1 l1 (l3.2 hin) (l2.trans k2.symm)
    omega
  refine ⟨d0, d1, xs, he, rfl, hc, rfl, by omega, fun hfew => ?_, fun hmany => ?_⟩
  rotate_left
  · have hx2 := x4 hroot' (by rw [hil]; omega)
    obtain ⟨j, e, j0, j1, j2, j3, j4, j5⟩ := x5 (by omega) hx2
    have hent' := append_entry (xs := xs) hc
    have hl' : (append c xs).ins.length = c.ins.length + xs.length := by
      show (c.ins ++ _).length = _
      rw [List.length_append]
    refine ⟨?_, j, e, ⟨_, _, hent', j0, by omega, j2⟩, j3, by omega, by omega⟩
    rcases xd with h | h
    · exact h
    · rw [isBdd_far hent' j0 j1 j2 j4] at h; cases h
  obtain ⟨x2, x3⟩ := x23 (by omega)
  intro x hx
  obtain ⟨T, hT⟩ := (hc.wf i hi).tree he
  have hT' := or_repr (pos := pos) (neg := neg) hw a1 a3 a4 a5 a6 hT (Nat.le_refl _) (by omega)
  rw [hys, show d0 + (c.ins.length - d0) = c.ins.length by omega] at hT'
  obtain ⟨T', r1, r2, r3⟩ := x3 hroot' _ hT'
  have hm' : ∀ v, T'.Mem v → v < x.length := by
    intro v hv
    obtain ⟨j, e, g1, g2, g3, g4, g5⟩ := r3 v hv
    rw [hil] at g2
    obtain ⟨e', k1, k2, k3⟩ := hcopy j e g1 g2 g3
    exact hx v ⟨_, e', k1, k3.2 g4, k2.trans g5⟩
  have hm := hx.mem he hw hT
  refine ⟨_, cEvaluate_weak (append_entry hc) x2 r1 hm', ?_⟩
  rw [r2, Tree.eval_orPath, cEvaluate_ok he hw hT hm]
  have ht := fun v => tests_iff he hT x v
  constructor
  · rintro (h | ⟨v, h1, h2, h3⟩ | ⟨v, h1, h2, h3⟩)
    · exact Or.inl (by rw [h])
    · exact Or.inr (Or.inl ⟨v, h1, (ht v).2 h2, (getD_true x v).1 h3⟩)
    · refine Or.inr (Or.inr ⟨v, h1, (ht v).2 h2, ?_⟩)
      have := hm v h2.mem
      rw [List.getD_eq_getElem?_getD, List.getElem?_eq_getElem this] at h3
      rw [List.getElem?_eq_getElem this]
      simpa using h3
  · rintro (h | ⟨v, h1, h2, h3⟩ | ⟨v, h1, h2, h3⟩)
    · injection h with h; exact Or.inl h
    · exact Or.inr (Or.inl ⟨v, h1, (ht v).1 h2, (getD_true x v).2 h3⟩)
    · exact Or.inr (Or.inr ⟨v, h1, (ht v).1 h2, by simp [List.getD_eq_getElem?_getD, h3]⟩)

/-- C50, whenever `bdd_or_var` returns (in debug or release builds), for entries whose root stays (not both of its arcs are set to the true sink,
and no other node has the root's variable, as in every ordered entry) and that lose fewer than 128 nodes, in particular for all entries of fewer than
130 nodes: the new entry is true exactly where the old one is, or where evaluating the old entry looks at a variable of `pos` that is true or at a
variable of `neg` that is false. The other entries keep their numbers and contents. -/
theorem C50_returned (hC : CReachable cfg c) (hi : i < c.nrBdds) (hroot : ∀ d, c.del[i]? = some d → ¬ c.BothTop i pos neg d)
    (honly : ∀ d e j e', c.del[i]? = some d → c.ins[d]? = some e → c.At i j e' → e'.Inner → e'.index = e.index → j = d)
    {nr : Nat} (hrun : bddOrVar cfg i pos neg c = .ok nr c') (hfew : ∀ k k', c.Size i k → c'.Size nr k' → k < k' + 128) :
    nr = c.nrBdds ∧ c'.nrBdds = c.nrBdds + 1 ∧ (∀ k, k < c.nrBdds → SameEntry c k c' k) ∧
      ∀ x, CCovers c i x → ∃ b, cEvaluate cfg c' c.nrBdds x = .ok b () ∧
        (b = true ↔ cEvaluate cfg c i x = .ok true () ∨ (∃ v, v ∈ pos ∧ c.Tests i x v ∧ x[v]? = some true) ∨
          ∃ v, v ∈ neg ∧ c.Tests i x v ∧ x[v]? = some false) := by
  obtain ⟨d0, d1, xs, he, rfl, hc, rfl, hl, h1, h2⟩ := orVar_returns hC hi hroot honly hrun
  refine ⟨rfl, append_nrBdds hc, fun k hk => append_same hc hk, h1 ?_⟩
  have := ((hc.wf i hi).entry he).two
  clear h1 h2
  exact hfew _ _ ⟨d0, d1, he, by omega⟩ ⟨_, _, append_entry hc, rfl⟩

/-- C50, debug builds: whenever `bdd_or_var` returns and the root stays, the new entry is as in `C50_returned`, whatever the size of the entry. -/
theorem C50_debug (hC : CReachable cfg c) (hi : i < c.nrBdds) (hroot : ∀ d, c.del[i]? = some d → ¬ c.BothTop i pos neg d)
    (honly : ∀ d e j e', c.del[i]? = some d → c.ins[d]? = some e → c.At i j e' → e'.Inner → e'.index = e.index → j = d) (hd : cfg.ndebug = false)
    {nr : Nat} (hrun : bddOrVar cfg i pos neg c = .ok nr c') :
    nr = c.nrBdds ∧ c'.nrBdds = c.nrBdds + 1 ∧ (∀ k, k < c.nrBdds → SameEntry c k c' k) ∧
      ∀ x, CCovers c i x → ∃ b, cEvaluate cfg c' c.nrBdds x = .ok b () ∧
        (b = true ↔ cEvaluate cfg c i x = .ok true () ∨ (∃ v, v ∈ pos ∧ c.Tests i x v ∧ x[v]? = some true) ∨
          ∃ v, v ∈ neg ∧ c.Tests i x v ∧ x[v]? = some false) := by
  obtain ⟨d0, d1, xs, he, rfl, hc, rfl, hl, h1, h2⟩ := orVar_returns hC hi hroot honly hrun
  refine ⟨rfl, append_nrBdds hc, fun k hk => append_same hc hk, h1 ?_⟩
  refine Classical.byContradiction fun h => ?_
  have := (h2 (by omega)).1
  rw [hd] at this; cases this

/-- C50: when the root stays and the entry loses 128 or more nodes, the call can return in release builds only (debug builds abort), and some node
of the new entry has both arcs past the end of all instructions: the new entry is not a BDD. -/
theorem C50_many_removed (hC : CReachable cfg c) (hi : i < c.nrBdds) (hroot : ∀ d, c.del[i]? = some d → ¬ c.BothTop i pos neg d)
    (honly : ∀ d e j e', c.del[i]? = some d → c.ins[d]? = some e → c.At i j e' → e'.Inner → e'.index = e.index → j = d)
    {nr k k' : Nat} (hrun : bddOrVar cfg i pos neg c = .ok nr c') (hk : c.Size i k) (hk' : c'.Size nr k') (hmany : k' + 128 ≤ k) :
    cfg.ndebug = true ∧ (∀ k, k < c.nrBdds → SameEntry c k c' k) ∧ ∃ j e, c'.At nr j e ∧ e.Inner ∧ c'.ins.length ≤ e.lo ∧ c'.ins.length ≤ e.hi := by
  obtain ⟨d0, d1, xs, he, rfl, hc, rfl, hl, h1, h2⟩ := orVar_returns hC hi hroot honly hrun
  obtain ⟨a0, a1, ha, rfl⟩ := hk
  obtain ⟨b0, b1, hb, rfl⟩ := hk'
  obtain ⟨rfl, rfl⟩ := ha.unique he
  obtain ⟨rfl, h⟩ := hb.unique (append_entry hc)
  obtain ⟨g1, g2⟩ := h2 (by omega)
  exact ⟨g1, fun k hk => append_same hc hk, g2⟩

/-! ## Crashes -/

/-- The computation neither throws nor loops. -/
def Quiet {α : Type} (m : M Coll α) : Prop := ∀ c, (∃ a c', m c = .ok a c') ∨ Crashes (m c)

theorem Quiet.bind {α β : Type} {m : M Coll α} {f : α → M Coll β} (hm : Quiet m) (hf : ∀ a, Quiet (f a)) : Quiet (m >>= f) := by
  intro c
  rcases hm c with ⟨a, c', h⟩ | h | h
  · rw [M.bind_ok h]; exact hf a c'
  · right; left
    show M.bind m f c = _
    unfold M.bind
    rw [h]
  · right; right
    show M.bind m f c = _
    unfold M.bind
    rw [h]

theorem Quiet.pure {α : Type} (a : α) : Quiet (pure a : M Coll α) := fun c => Or.inl ⟨a, c, rfl⟩
theorem Quiet.modify (f : Coll → Coll) : Quiet (M.modify f) := fun c => Or.inl ⟨(), f c, rfl⟩
theorem Quiet.get : Quiet (M.get : M Coll Coll) := fun c => Or.inl ⟨c, c, rfl⟩
theorem Quiet.ub {α : Type} : Quiet (M.ub : M Coll α) := fun _ => Or.inr (Or.inr rfl)
theorem Quiet.assert (nd p : Bool) : Quiet (M.assert nd p) := by
  intro c
  unfold M.assert
  split
  · exact Or.inl ⟨_, _, rfl⟩
  · exact Or.inr (Or.inl rfl)
theorem Quiet.insAt (i : Nat) : Quiet (insAt i) := by
  intro c
  unfold LBDD.insAt
  cases c.ins[i]? with
  | none => exact Or.inr (Or.inr rfl)
  | some e => exact Or.inl ⟨_, _, rfl⟩
theorem Quiet.dlm (i : Nat) : Quiet (dlm i) := by
  intro c
  unfold LBDD.dlm
  cases c.del[i]? with
  | none => exact Or.inr (Or.inr rfl)
  | some e => exact Or.inl ⟨_, _, rfl⟩
theorem Quiet.mapAt (m : List (Instr × Nat)) (e : Instr) : Quiet (mapAt m e) := by
  unfold LBDD.mapAt
  cases m.lookup e with
  | none => exact .ub
  | some e => exact .pure _

theorem Quiet.redMark (d0 : Nat) : ∀ k rm, Quiet (redMark d0 k rm)
  | 0, rm => by
    unfold LBDD.redMark
    split
    · exact .ub
    · exact .pure _
  | k + 1, rm => by
    unfold LBDD.redMark
    have hs : ∀ b a l, Quiet (skipArc b a l) := fun b a l c => Or.inl ⟨_, _, skipArc_ok b a l⟩
    refine .bind (.insAt _) fun e => .bind (.insAt _) fun l => .bind (.insAt _) fun h => .bind (hs _ _ _) fun lo => .bind (hs _ _ _) fun hi =>
      .bind (.modify _) fun _ => Quiet.redMark d0 k _

theorem Quiet.redMerge (cfg : Cfg) (d0 : Nat) : ∀ k m rm, Quiet (redMerge cfg d0 k m rm)
  | 0, m, rm => by
    unfold LBDD.redMerge
    split
    · exact .ub
    · exact .pure _
  | k + 1, m, rm => by
    unfold LBDD.redMerge
    split
    · exact Quiet.redMerge cfg d0 k m rm
    · refine .bind (.insAt _) fun e => .bind (.insAt _) fun l => .bind (.insAt _) fun h => .bind (.assert _ _) fun _ => .bind (.assert _ _) fun _ =>
        .bind (.mapAt _ _) fun lo => .bind (.modify _) fun _ => .bind (.insAt _) fun h => .bind (.mapAt _ _) fun hi => .bind (.modify _) fun _ =>
        Quiet.redMerge cfg d0 k _ _

theorem Quiet.redCopy (d0 : Nat) (rm : List Bool) : ∀ n i, Quiet (redCopy d0 rm n i)
  | 0, i => .pure _
  | n + 1, i => by
    unfold LBDD.redCopy
    split
    · exact Quiet.redCopy d0 rm n _
    · refine .bind (.insAt _) fun e => ?_
      split
      · exact .ub
      · exact .bind (Quiet.redCopy d0 rm n _) fun l => .pure _

theorem Quiet.reduceLast (cfg : Cfg) : Quiet (reduceLast cfg) := by
  unfold LBDD.reduceLast
  refine .bind .get fun c => .bind (.assert _ _) fun _ => .bind (.dlm _) fun d0 => .bind (.dlm _) fun d1 => ?_
  split
  · exact .ub
  · exact .bind (.redMark _ _ _) fun rm => .bind (.insAt _) fun a => .bind (.insAt _) fun b => .bind (.redMerge _ _ _ _ _) fun rm =>
      .bind (.redCopy _ _ _ _) fun l => .bind (.insAt _) fun b => .bind (.insAt _) fun a => .bind (.modify _) fun _ => .bind .get fun c => .assert _ _

/-- `bdd_or_var` crashes (assertion failure or undefined behaviour) whenever a node that does not itself become redundant keeps an arc to a node that
does. -/
theorem C50_crash (hC : CReachable cfg c) {j q : Nat} {e : Instr} (hj : c.At i j e) (hin : e.Inner) (hkeep : ¬ c.BothTop i pos neg j)
    (hq : (q = e.lo ∧ e.index ∉ neg) ∨ (q = e.hi ∧ e.index ∉ pos)) (hred : c.BothTop i pos neg q) : Crashes (bddOrVar cfg i pos neg c) := by
  have hc := hC.inv
  obtain ⟨d0, d1, he, hj0, hj1, hje⟩ := hj
  have hi := he.lt
  have hw := (hc.wf i hi).entry he
  obtain ⟨t, et, a1, a2, a3, a4, a5, a6, e1⟩ := bddOrVar_run (cfg := cfg) (pos := pos) (neg := neg) hc he
  have hlen := hw.len
  have two := hw.two
  obtain ⟨b0, b1, b2, b3, b4, b5, b6⟩ := hw.node hj0 hj1 hje hin
  have hq0 : d0 ≤ q ∧ q + 2 < d1 := by
    obtain ⟨eq, ⟨x, y, hxy, g1, g2, g3⟩, g4, _⟩ := hred
    obtain ⟨rfl, rfl⟩ := he.unique hxy
    exact ⟨g1, (hw.node g1 g2 g3 g4).1⟩
  rw [e1]
  have hquiet : Quiet (do
      reduceLast cfg
      let c' ← M.get
      M.assert cfg.ndebug (c'.isBdd c.nrBdds)
      pure c.nrBdds : M Coll Nat) :=
    .bind (.reduceLast _) fun _ => .bind .get fun _ => .bind (.assert _ _) fun _ => .pure _
  rcases hquiet (append c (orIns c d0 d1 pos neg (t + (c.ins.length - d0)))) with ⟨r, c', hrun⟩ | h
  · exfalso
    obtain ⟨u, c1, h1, _⟩ := M.ok_bind hrun
    have hol := orIns_length (pos := pos) (neg := neg) hw (t + (c.ins.length - d0))
    have hil : (append c (orIns c d0 d1 pos neg (t + (c.ins.length - d0)))).ins.length = c.ins.length + (d1 - d0) := by
      show (c.ins ++ _).length = _
      rw [List.length_append, hol]
    have hent := append_entry (xs := orIns c d0 d1 pos neg (t + (c.ins.length - d0))) hc
    rw [hol] at hent
    have hweak := or_weak (pos := pos) (neg := neg) hw a2 a3
    obtain ⟨hno, _⟩ := reduceLast_ok (append_nrBdds hc) (by rw [hil]; exact hent) (by rw [hil]; exact hweak) (by omega) h1
    have hr := redundant_iff (pos := pos) (neg := neg) he hw a1 a3 a4 a5 hj0 b0
    have hrq := (redundant_iff (pos := pos) (neg := neg) he hw a1 a3 a4 a5 hq0.1 hq0.2).2 hred
    have hg := orIns_get (pos := pos) (neg := neg) hw (t + (c.ins.length - d0)) hj0 hj1 hje
    rw [reroute_node b2] at hg
    obtain ⟨k1, k2⟩ := hno _ _ (by omega) (by rw [hil]; omega) hg (fun h => hkeep (hr.1 ⟨_, hg, h⟩))
    dsimp only at k1 k2
    rw [hil] at k1 k2
    rcases hq with ⟨rfl, hq⟩ | ⟨rfl, hq⟩
    · rw [if_neg hq] at k1
      have := k1 hrq
      omega
    · rw [if_neg hq] at k2
      have := k2 hrq
      omega
  · exact h
end

/-! ## Examples -/

/-- Check of `BothTop`. -/
def Coll.bothTopB (c : Coll) (pos neg : List Nat) (j : Nat) : Bool :=
  match c.ins[j]? with
  | none => false
  | some e => e.innerB && (neg.contains e.index || (match c.ins[e.lo]? with | some e' => e'.index == cTop | none => false)) &&
      (pos.contains e.index || (match c.ins[e.hi]? with | some e' => e'.index == cTop | none => false))

theorem Coll.bothTopB_sound {c : Coll} {nr : Nat} {pos neg : List Nat} {j : Nat} (h : c.bothTopB pos neg j = false) : ¬ c.BothTop nr pos neg j := by
  rintro ⟨e, ⟨_, _, _, _, _, h1⟩, h2, h3, h4⟩
  unfold Coll.bothTopB at h
  rw [h1] at h
  simp only [(Instr.innerB_iff e).2 h2, Bool.true_and, Bool.and_eq_false_imp, Bool.or_eq_true, Bool.or_eq_false_iff] at h
  have key : ∀ p, c.TopAt nr p → (match c.ins[p]? with | some e' => e'.index == cTop | none => false) = true := by
    rintro p ⟨e', ⟨_, _, _, _, _, g1⟩, g2⟩
    rw [g1]; simp [g2]
  have h5 := h (by
    rcases h3 with h3 | h3
    · exact Or.inl (by simp [h3])
    · exact Or.inr (key _ h3))
  rcases h4 with h4 | h4
  · simp [h4] at h5
  · rw [key _ h4] at h5; exact absurd h5.2 (by decide)

/-- Check that a call returns `r`. -/
def okRet (o : Res Coll Nat) (r : Nat) : Bool := match o with | .ok k _ => k == r | _ => false

theorem okRet_sound {o : Res Coll Nat} {r : Nat} (h : okRet o r = true) : ∃ c', o = .ok r c' := by
  cases o with
  | ok k c' => simp only [okRet, beq_iff_eq] at h; subst h; exact ⟨c', rfl⟩
  | _ => cases h

/-- C50, root redundant: ¬(x0∧x1) ∨ x0 is true everywhere, but `bdd_or_var` returns ¬x1, in both builds: where the original entry is true the new one
is false. -/
theorem C50_refuted_root (nd : Bool) : ∃ c c', CReachable (envOf nd) c ∧ 1 < c.nrBdds ∧ c.Reduced 1 ∧ bddOrVar (envOf nd) 1 [0] [] c = .ok c.nrBdds c' ∧
    cEvaluate (envOf nd) c 1 [false, true] = .ok true () ∧ cEvaluate (envOf nd) c' c.nrBdds [false, true] = .ok false () := by
  have hn := demoC_nrBdds nd
  obtain ⟨c', h1⟩ := okRet_sound (o := bddOrVar (envOf nd) 1 [0] [] (demoC nd)) (r := 4) (by cases nd <;> decide +kernel)
  refine ⟨demoC nd, c', demoC_reachable nd, by rw [hn]; omega, (demoC_big_reduced nd 1 (by omega)).2, by rw [hn]; exact h1, ?_, ?_⟩
  · exact cevB_sound (by cases nd <;> decide +kernel)
  · rw [hn]
    exact evC_sound (by cases nd <;> decide +kernel) h1

/-- C50: a case in which `reduce` removes a node and the call returns: ((x0∧x1) ∨ x2) with the literals x0 and ¬x1. -/
example (nd : Bool) : ∃ c', bddOrVar (envOf nd) 2 [0] [1] (demoC nd) = .ok 4 c' ∧ c'.ins.length = (demoC nd).ins.length + 4 ∧
    (∃ d, (demoC nd).Entry 2 d (d + 5)) ∧ (∀ d, (demoC nd).del[2]? = some d → ¬ (demoC nd).BothTop 2 [0] [1] d) := by
  obtain ⟨c', h1⟩ := okRet_sound (o := bddOrVar (envOf nd) 2 [0] [1] (demoC nd)) (r := 4) (by cases nd <;> decide +kernel)
  refine ⟨c', h1, ?_, ⟨8, by cases nd <;> decide +kernel, by cases nd <;> decide +kernel⟩, fun d hd => ?_⟩
  · have : (match bddOrVar (envOf nd) 2 [0] [1] (demoC nd) with | .ok _ c' => c'.ins.length | _ => 0) = (demoC nd).ins.length + 4 := by
      cases nd <;> decide +kernel
    rw [h1] at this; exact this
  · have : (demoC nd).del[2]? = some 8 := by cases nd <;> decide +kernel
    rw [this] at hd; cases hd
    exact Coll.bothTopB_sound (by cases nd <;> decide +kernel)

/-- C50_crash: ¬(x0∧x1) with the literal x1. The root keeps its arc to the node of x1, both of whose arcs become the true sink. -/
example (nd : Bool) : Crashes (bddOrVar (envOf nd) 1 [1] [] (demoC nd)) := by
  have h0 : (demoC nd).del[1]? = some 4 := by cases nd <;> decide +kernel
  have h1 : (demoC nd).del[1 + 1]? = some 8 := by cases nd <;> decide +kernel
  have g0 : (demoC nd).ins[4]? = some ⟨7, 5, 0⟩ := by cases nd <;> decide +kernel
  have g1 : (demoC nd).ins[5]? = some ⟨7, 6, 1⟩ := by cases nd <;> decide +kernel
  have g2 : (demoC nd).ins[7]? = some topInstr := by cases nd <;> decide +kernel
  refine C50_crash (demoC_reachable nd) (i := 1) (j := 4) (q := 5) (e := ⟨7, 5, 0⟩) ⟨4, 8, ⟨h0, h1⟩, by omega, by omega, g0⟩ (by unfold Instr.Inner; decide)
    (Coll.bothTopB_sound (by cases nd <;> decide +kernel)) (Or.inr ⟨rfl, by decide⟩) ?_
  exact ⟨_, ⟨4, 8, ⟨h0, h1⟩, by omega, by omega, g1⟩, by unfold Instr.Inner; decide, Or.inr ⟨_, ⟨4, 8, ⟨h0, h1⟩, by show 4 ≤ 7; omega, by show 7 < 8; omega, g2⟩, rfl⟩,
    Or.inl (by decide)⟩

end LBDD
