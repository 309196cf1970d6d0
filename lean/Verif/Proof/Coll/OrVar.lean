import Verif.Spec.CollEdit
import Verif.Proof.Coll.Reduce
import Verif.Proof.Coll.Remove
/-! `bdd_or_var` when the rerouted entry is reduced. -/
namespace LBDD

theorem M.modify_bind {σ β : Type} (f : σ → σ) (k : Unit → M σ β) (s : σ) : (M.modify f >>= k) s = k () (f s) := rfl

/-- Set the arcs taken when a literal holds to the true sink. -/
def Tree.orPath (pos neg : List Nat) : Tree → Tree
  | .bot => .bot
  | .top => .top
  | .node v l h => .node v (if v ∈ neg then .top else l.orPath pos neg) (if v ∈ pos then .top else h.orPath pos neg)

variable {cfg : Cfg} {c : Coll} {i d0 d1 : Nat} {pos neg : List Nat}

/-- The instructions of the new entry. -/
def orIns (c : Coll) (d0 d1 : Nat) (pos neg : List Nat) (top : Nat) : List Instr :=
  (((c.ins.drop d0).take (d1 - d0)).map (shiftIns (c.ins.length - d0))).map (reroute pos neg top)

theorem orIns_length (hw : WfRange c.ins d0 d1) (top : Nat) : (orIns c d0 d1 pos neg top).length = d1 - d0 := by
  have := hw.len
  simp [orIns]; omega

theorem orIns_get (hw : WfRange c.ins d0 d1) (top : Nat) {j : Nat} {e : Instr} (h0 : d0 ≤ j) (h1 : j < d1) (he : c.ins[j]? = some e) :
    (append c (orIns c d0 d1 pos neg top)).ins[j + (c.ins.length - d0)]? = some (reroute pos neg top (shiftIns (c.ins.length - d0) e)) := by
  have := hw.len
  rw [show j + (c.ins.length - d0) = c.ins.length + (j - d0) by omega, append_new]
  unfold orIns
  rw [List.getElem?_map, List.getElem?_map, List.getElem?_take_of_lt (by omega), List.getElem?_drop, show d0 + (j - d0) = j by omega, he]
  rfl

theorem reroute_sink {e : Instr} {top δ : Nat} (h : e.lo = e.hi) : reroute pos neg top (shiftIns δ e) = e := by
  have : e.isTerm = true := by simp [Instr.isTerm, h]
  simp [shiftIns, reroute, this]

theorem reroute_node {e : Instr} {top δ : Nat} (h : e.lo ≠ e.hi) : reroute pos neg top (shiftIns δ e) =
    ⟨if e.index ∈ neg then top else e.lo + δ, if e.index ∈ pos then top else e.hi + δ, e.index⟩ := by
  have t : e.isTerm = false := by simp [Instr.isTerm, h]
  have t' : (⟨e.lo + δ, e.hi + δ, e.index⟩ : Instr).isTerm = false := by simp [Instr.isTerm]; omega
  simp [shiftIns, reroute, t, t']

/-- Where the true sink is. -/
theorem WfRange.topPos (hw : WfRange c.ins d0 d1) : ∃ t b et eb, d0 ≤ t ∧ d1 ≤ t + 2 ∧ t < d1 ∧ c.ins[t]? = some et ∧ et.index = cTop ∧ et.lo = et.hi ∧
    d0 ≤ b ∧ d1 ≤ b + 2 ∧ b < d1 ∧ c.ins[b]? = some eb ∧ eb.index = cBot ∧ eb.lo = eb.hi := by
  obtain ⟨a, b, ha, hb, ta, tb, h⟩ := hw.sinks
  have := hw.two
  rcases h with ⟨h1, h2⟩ | ⟨h1, h2⟩
  · exact ⟨d1 - 1, d1 - 2, b, a, by omega, by omega, by omega, hb, h2, tb, by omega, by omega, by omega, ha, h1, ta⟩
  · exact ⟨d1 - 2, d1 - 1, a, b, by omega, by omega, by omega, ha, h1, ta, by omega, by omega, by omega, hb, h2, tb⟩

section
variable {t : Nat} {et : Instr}

theorem or_wf (he : c.Entry i d0 d1) (hw : WfRange c.ins d0 d1) (hs : OrSimple c i pos neg) (h1 : d1 ≤ t + 2) (h2 : t < d1) (h3 : c.ins[t]? = some et)
    (h4 : et.index = cTop) : WfRange (append c (orIns c d0 d1 pos neg (t + (c.ins.length - d0)))).ins c.ins.length
      (c.ins.length + (orIns c d0 d1 pos neg (t + (c.ins.length - d0))).length) := by
  rw [orIns_length hw]
  have hlen := hw.len
  have two := hw.two
  have htop : c.TopAt i t := ⟨et, ⟨d0, d1, he, by omega, h2, h3⟩, h4⟩
  refine ⟨by omega, fun k hk0 hk1 => ?_, ?_⟩
  · obtain ⟨e, a, b1, b2, b3, b4, b5, b6⟩ := hw.inner (k - (c.ins.length - d0)) (by omega) (by omega)
    have hin := Instr.inner_of_lt b1
    have hat : c.At i (k - (c.ins.length - d0)) e := ⟨d0, d1, he, by omega, by omega, a⟩
    have hg := orIns_get (pos := pos) (neg := neg) hw (t + (c.ins.length - d0)) (by omega) (by omega) a
    rw [show k - (c.ins.length - d0) + (c.ins.length - d0) = k by omega, reroute_node b2] at hg
    refine ⟨_, hg, b1, ?_, ?_⟩
    · show ¬ (if e.index ∈ neg then t + (c.ins.length - d0) else e.lo + (c.ins.length - d0)) =
        (if e.index ∈ pos then t + (c.ins.length - d0) else e.hi + (c.ins.length - d0))
      have hb := hs.both e.index ⟨_, e, hat, hin, rfl⟩
      by_cases hn : e.index ∈ neg
      · by_cases hp : e.index ∈ pos
        · exact absurd hn (hb hp)
        · rw [if_pos hn, if_neg hp]
          intro h
          have : e.hi = t := by omega
          exact hs.hi _ _ hat hin hn (this ▸ htop)
      · by_cases hp : e.index ∈ pos
        · rw [if_neg hn, if_pos hp]
          intro h
          have : e.lo = t := by omega
          exact hs.lo _ _ hat hin hp (this ▸ htop)
        · rw [if_neg hn, if_neg hp]; omega
    · show k < (if e.index ∈ neg then t + (c.ins.length - d0) else e.lo + (c.ins.length - d0)) ∧
        (if e.index ∈ neg then t + (c.ins.length - d0) else e.lo + (c.ins.length - d0)) < _ ∧
        k < (if e.index ∈ pos then t + (c.ins.length - d0) else e.hi + (c.ins.length - d0)) ∧
        (if e.index ∈ pos then t + (c.ins.length - d0) else e.hi + (c.ins.length - d0)) < _
      refine ⟨?_, ?_, ?_, ?_⟩ <;> split <;> omega
  · obtain ⟨a, b, ha, hb, ta, tb, h⟩ := hw.sinks
    have g1 := orIns_get (pos := pos) (neg := neg) hw (t + (c.ins.length - d0)) (by omega) (by omega) ha
    have g2 := orIns_get (pos := pos) (neg := neg) hw (t + (c.ins.length - d0)) (by omega) (by omega) hb
    rw [reroute_sink ta, show d1 - 2 + (c.ins.length - d0) = c.ins.length + (d1 - d0) - 2 by omega] at g1
    rw [reroute_sink tb, show d1 - 1 + (c.ins.length - d0) = c.ins.length + (d1 - d0) - 1 by omega] at g2
    exact ⟨a, b, g1, g2, ta, tb, h⟩

theorem or_nodup (he : c.Entry i d0 d1) (hw : WfRange c.ins d0 d1) (hs : OrSimple c i pos neg) (top : Nat) (j k : Nat) (e : Instr)
    (hj0 : c.ins.length ≤ j) (hj1 : j < c.ins.length + (d1 - d0)) (hk0 : c.ins.length ≤ k) (hk1 : k < c.ins.length + (d1 - d0)) (hin : e.Inner)
    (hj : (append c (orIns c d0 d1 pos neg top)).ins[j]? = some e) (hk : (append c (orIns c d0 d1 pos neg top)).ins[k]? = some e) : j = k := by
  have hlen := hw.len
  have two := hw.two
  have key : ∀ k, c.ins.length ≤ k → k < c.ins.length + (d1 - d0) → (append c (orIns c d0 d1 pos neg top)).ins[k]? = some e →
      ∃ e', c.At i (k - (c.ins.length - d0)) e' ∧ e'.Inner ∧
        e = ⟨if e'.index ∈ neg then top else e'.lo + (c.ins.length - d0), if e'.index ∈ pos then top else e'.hi + (c.ins.length - d0), e'.index⟩ := by
    intro k hk0 hk1 hk
    obtain ⟨e', he', hc⟩ := hw.cases (i := k - (c.ins.length - d0)) (by omega) (by omega)
    have hg := orIns_get (pos := pos) (neg := neg) hw top (by omega) (by omega) he'
    rw [show k - (c.ins.length - d0) + (c.ins.length - d0) = k by omega, hk] at hg
    injection hg with hg
    rcases hc with ⟨_, b, b', _⟩ | ⟨_, b, b'⟩
    · exact ⟨e', ⟨d0, d1, he, by omega, by omega, he'⟩, Instr.inner_of_lt b, by rw [hg, reroute_node b']⟩
    · rw [reroute_sink b] at hg
      subst hg
      exfalso
      rcases b' with b' | b'
      · exact hin.1 b'
      · exact hin.2 b'
  obtain ⟨e1, a1, b1, c1⟩ := key j hj0 hj1 hj
  obtain ⟨e2, a2, b2, c2⟩ := key k hk0 hk1 hk
  rw [c1] at c2
  injection c2 with x1 x2 x3
  have := hs.dist _ _ _ _ a1 a2 b1 x3 (by
    rw [← x3] at x1
    by_cases hn : e1.index ∈ neg
    · exact Or.inl hn
    · rw [if_neg hn, if_neg hn] at x1; right; omega) (by
    rw [← x3] at x2
    by_cases hn : e1.index ∈ pos
    · exact Or.inl hn
    · rw [if_neg hn, if_neg hn] at x2; right; omega)
  omega

/-- What the copy of a position unfolds to. -/
theorem or_repr (hw : WfRange c.ins d0 d1) (h0 : d0 ≤ t) (h2 : t < d1) (h3 : c.ins[t]? = some et)
    (h4 : et.index = cTop) (h5 : et.lo = et.hi) {j : Nat} {T : Tree} (ht : CRepr c.ins j T) (hj0 : d0 ≤ j) (hj1 : j < d1) :
    CRepr (append c (orIns c d0 d1 pos neg (t + (c.ins.length - d0)))).ins (j + (c.ins.length - d0)) (T.orPath pos neg) := by
  have htop : CRepr (append c (orIns c d0 d1 pos neg (t + (c.ins.length - d0)))).ins (t + (c.ins.length - d0)) .top := by
    have := orIns_get (pos := pos) (neg := neg) hw (t + (c.ins.length - d0)) h0 h2 h3
    rw [reroute_sink h5] at this
    exact .top this h4
  induction ht with
  | @bot j e g1 g2 =>
    obtain ⟨e', a, b⟩ := hw.cases hj0 hj1
    rw [g1] at a; cases a
    have hg := orIns_get (pos := pos) (neg := neg) hw (t + (c.ins.length - d0)) hj0 hj1 g1
    rcases b with ⟨_, b, _⟩ | ⟨_, b, _⟩
    · omega
    · rw [reroute_sink b] at hg; exact .bot hg g2
  | @top j e g1 g2 =>
    obtain ⟨e', a, b⟩ := hw.cases hj0 hj1
    rw [g1] at a; cases a
    have hg := orIns_get (pos := pos) (neg := neg) hw (t + (c.ins.length - d0)) hj0 hj1 g1
    rcases b with ⟨_, b, _⟩ | ⟨_, b, _⟩
    · have := cBot_lt_cTop; omega
    · rw [reroute_sink b] at hg; exact .top hg g2
  | @node j e tl th g1 g2 _ _ ih1 ih2 =>
    obtain ⟨b0, b1, b2, b3, b4, b5, b6⟩ := hw.node hj0 hj1 g1 g2
    have hg := orIns_get (pos := pos) (neg := neg) hw (t + (c.ins.length - d0)) hj0 hj1 g1
    rw [reroute_node b2] at hg
    have k1 := ih1 (by omega) b4
    have k2 := ih2 (by omega) b6
    have := CRepr.node (tl := if e.index ∈ neg then .top else tl.orPath pos neg) (th := if e.index ∈ pos then .top else th.orPath pos neg) hg g2 (by
      show CRepr _ (if e.index ∈ neg then t + (c.ins.length - d0) else e.lo + (c.ins.length - d0)) _
      split
      · exact htop
      · exact k1) (by
      show CRepr _ (if e.index ∈ pos then t + (c.ins.length - d0) else e.hi + (c.ins.length - d0)) _
      split
      · exact htop
      · exact k2)
    exact this
end

/-- The call appends the rerouted copy and reduces it. -/
theorem bddOrVar_run (hc : CInv c) (he : c.Entry i d0 d1) : ∃ t et, d0 ≤ t ∧ d1 ≤ t + 2 ∧ t < d1 ∧ c.ins[t]? = some et ∧ et.index = cTop ∧
    et.lo = et.hi ∧ bddOrVar cfg i pos neg c = (do
      reduceLast cfg
      let c' ← M.get
      M.assert cfg.ndebug (c'.isBdd c.nrBdds)
      pure c.nrBdds : M Coll Nat) (append c (orIns c d0 d1 pos neg (t + (c.ins.length - d0)))) := by
  have hlt := he.lt
  have hw := (hc.wf i hlt).entry he
  have hlen := hw.len
  have two := hw.two
  obtain ⟨t, b, et, eb, a1, a2, a3, a4, a5, a6, b1, b2, b3, b4, b5, b6⟩ := hw.topPos
  refine ⟨t, et, a1, a2, a3, a4, a5, a6, ?_⟩
  have hbt : b ≠ t := by
    intro h; subst h; rw [a4] at b4; cases b4
    exact cBot_ne_cTop (b5.symm.trans a5)
  unfold bddOrVar
  rw [M.get_bind_apply, M.assert_bind_apply (by simp; exact hlt), M.bind_ok (dlm_ok0 he), M.bind_ok (dlm_ok1 he)]
  have e1 : dlmBack c = .ok c.ins.length c := by unfold dlmBack; rw [hc.last]
  rw [M.bind_ok e1, M.bind_ok (insRange_ok _ _ (by omega))]
  -- the copy
  let xs := ((c.ins.drop d0).take (d1 - d0)).map (shiftIns (c.ins.length - d0))
  have hxl : xs.length = d1 - d0 := by simp [xs]; omega
  let c1 : Coll := append c xs
  have hc1 : ({ c with ins := c.ins ++ xs, del := c.del ++ [(c.ins ++ xs).length] } : Coll) = c1 := by simp [c1, append]
  rw [M.modify_bind, M.modify_bind]
  dsimp only
  rw [hc1, M.get_bind_apply]
  have hl1 : c1.ins.length = c.ins.length + (d1 - d0) := by
    show (c.ins ++ xs).length = _
    rw [List.length_append, hxl]
  have hget : ∀ (j : Nat) (e : Instr), d0 ≤ j → j < d1 → c.ins[j]? = some e → e.lo = e.hi → c1.ins[j + (c.ins.length - d0)]? = some e := by
    intro j e h0 h1 h h'
    show (c.ins ++ xs)[_]? = _
    rw [List.getElem?_append_right (by omega)]
    simp only [xs, List.getElem?_map]
    rw [List.getElem?_take_of_lt (by omega), List.getElem?_drop, show d0 + (j + (c.ins.length - d0) - c.ins.length) = j by omega, h]
    have : e.isTerm = true := by simp [Instr.isTerm, h']
    simp [shiftIns, this]
  have ht1 := hget t et a1 a3 a4 a6
  have hb1 := hget b eb b1 b3 b4 b6
  have hte : et.isTerm = true := by simp [Instr.isTerm, a6]
  have hbe : eb.isTerm = true := by simp [Instr.isTerm, b6]
  have htb : et ≠ eb := by
    intro h; subst h
    exact cBot_ne_cTop (b5.symm.trans a5)
  have htt : et.isTop = true := by simp [Instr.isTop, a5]
  have hbb : eb.isBot = true := by simp [Instr.isBot, b5]
  have htb' : et.isBot = false := by
    have := cBot_ne_cTop
    simp [Instr.isBot, a5]; exact fun h => this h.symm
  have hbt' : eb.isTop = false := by
    have := cBot_ne_cTop
    simp [Instr.isTop, b5]; exact this
  -- the rest, given the two sinks
  have rest : ∀ (bot top : Nat), bot = b + (c.ins.length - d0) → top = t + (c.ins.length - d0) →
      (do
        M.assert cfg.ndebug ((c1.ins[bot]?).any (·.isBot))
        M.assert cfg.ndebug ((c1.ins[top]?).any (·.isTop))
        M.assert cfg.ndebug (bot != top)
        let e0 ← dlm (c1.del.length - 2)
        M.modify fun c => { c with ins := c.ins.take e0 ++ (c.ins.drop e0).map (reroute pos neg top) }
        reduceLast cfg
        let c ← M.get
        M.assert cfg.ndebug (c.isBdd (c1.del.length - 2))
        pure (c1.del.length - 2) : M Coll Nat) c1 = (do
          reduceLast cfg
          let c' ← M.get
          M.assert cfg.ndebug (c'.isBdd c.nrBdds)
          pure c.nrBdds : M Coll Nat) (append c (orIns c d0 d1 pos neg (t + (c.ins.length - d0)))) := by
    rintro bot top rfl rfl
    have hnr : c1.del.length - 2 = c.nrBdds := by
      have := (getLast_length_del hc).2
      show (c.del ++ _).length - 2 = _
      simp; omega
    rw [hnr, M.assert_bind_apply (by rw [hb1]; simp [hbb]), M.assert_bind_apply (by rw [ht1]; simp [htt]), M.assert_bind_apply (by simp; omega)]
    have he1 : c1.Entry c.nrBdds c.ins.length (c.ins.length + xs.length) := append_entry hc
    rw [M.bind_ok (dlm_ok0 he1)]
    have hc2 : ({ c1 with ins := c1.ins.take c.ins.length ++ (c1.ins.drop c.ins.length).map (reroute pos neg (t + (c.ins.length - d0))) } : Coll) =
        append c (orIns c d0 d1 pos neg (t + (c.ins.length - d0))) := by
      simp [c1, append, orIns, xs]
    rw [M.modify_bind, hc2]
  have hbt2 : (t = d1 - 1 ∧ b = d1 - 2) ∨ (t = d1 - 2 ∧ b = d1 - 1) := by omega
  rcases hbt2 with ⟨ht, hb⟩ | ⟨ht, hb⟩
  · have g1 : c1.ins[c1.ins.length - 1]? = some et := by rw [← ht1]; congr 1; omega
    have g2 : c1.ins[c1.ins.length - 2]? = some eb := by rw [← hb1]; congr 1; omega
    rw [M.bind_ok (insAt_ok g1), M.bind_ok (insAt_ok g2), M.assert_bind_apply (by simp [hte]), M.assert_bind_apply (by simp [hbe]),
      M.assert_bind_apply (by simp [htb])]
    simp only [htb', htt, if_true, Bool.false_eq_true, if_false]
    exact rest _ _ (by omega) (by omega)
  · have g1 : c1.ins[c1.ins.length - 1]? = some eb := by rw [← hb1]; congr 1; omega
    have g2 : c1.ins[c1.ins.length - 2]? = some et := by rw [← ht1]; congr 1; omega
    rw [M.bind_ok (insAt_ok g1), M.bind_ok (insAt_ok g2), M.assert_bind_apply (by simp [hbe]), M.assert_bind_apply (by simp [hte]),
      M.assert_bind_apply (by simp [Ne.symm htb])]
    simp only [hbb, hbt', if_true, Bool.false_eq_true, if_false]
    exact rest _ _ (by omega) (by omega)

/-- The call returns the number of the new entry, the rerouted copy. -/
theorem bddOrVar_ok (hc : CInv c) (he : c.Entry i d0 d1) (hs : OrSimple c i pos neg) : ∃ t et, d0 ≤ t ∧ d1 ≤ t + 2 ∧ t < d1 ∧ c.ins[t]? = some et ∧ et.index = cTop ∧
    et.lo = et.hi ∧ bddOrVar cfg i pos neg c = .ok c.nrBdds (append c (orIns c d0 d1 pos neg (t + (c.ins.length - d0)))) := by
  obtain ⟨t, et, a1, a2, a3, a4, a5, a6, e⟩ := bddOrVar_run (cfg := cfg) (pos := pos) (neg := neg) hc he
  refine ⟨t, et, a1, a2, a3, a4, a5, a6, ?_⟩
  rw [e]
  have hw := (hc.wf i he.lt).entry he
  have hlen := hw.len
  have two := hw.two
  have hwf := or_wf he hw hs a2 a3 a4 a5
  have hol := orIns_length (pos := pos) (neg := neg) hw (t + (c.ins.length - d0))
  have hil : (append c (orIns c d0 d1 pos neg (t + (c.ins.length - d0)))).ins.length = c.ins.length + (d1 - d0) := by
    show (c.ins ++ _).length = _
    rw [List.length_append, hol]
  have hent := append_entry (xs := orIns c d0 d1 pos neg (t + (c.ins.length - d0))) hc
  rw [hol] at hent hwf
  have hnd := or_nodup he hw hs (t + (c.ins.length - d0))
  rw [M.bind_ok (reduceLast_id (append_nrBdds hc) (by rw [hil]; exact hent) (by rw [hil]; exact hwf) (by omega) (by rw [hil]; exact hnd)), M.get_bind_apply]
  rw [M.assert_bind_apply (isBdd_ok hent hwf hnd)]
  rfl

end LBDD
