import Verif.Props.CollRest
/-!
# Queries on collection entries (C49, C51, C58)
-/
namespace LBDD
section
variable {cfg : Cfg} {c c' : Coll}

/-! ## Entries without inner nodes -/

theorem SameEntry.big {nr nr' : Nat} (h : SameEntry c nr c' nr') (hb : c.Big nr) : c'.Big nr' := by
  obtain ⟨d0, d0', n, h1, h2, _⟩ := h
  intro a b he
  obtain ⟨rfl, rfl⟩ := he.unique h2
  have := hb _ _ h1
  omega

theorem AndSpec.big {K limit : Nat} {c1 : Coll} {l : List Nat} {t : Tree} {o : Option Nat} {run : Cfg → Nat → Res Coll (Option Nat)}
    (ha : Anded c c1 K l t) (hs : AndSpec c K c1 run) (hd : cfg.ndebug = false) (hb : ∀ k, k < c.nrBdds → c.Big k) (e : run cfg limit = .ok o c') :
    ∀ k, k < c'.nrBdds → c'.Big k := by
  rw [hs cfg limit] at e
  split at e
  · cases e
  · split at e
    · split at e
      · cases e
      · rename_i h1 h2 h3
        cases e
        intro k hk
        rw [ha.nr] at hk
        rcases Nat.lt_or_ge k c.nrBdds with h | h
        · exact (ha.same k h).big (hb k h)
        · have : k = c.nrBdds := by omega
          subst this
          intro a b he
          obtain ⟨rfl, rfl⟩ := he.unique ha.entry
          have := ha.two
          have : K ≠ 2 := fun h => h3 ⟨hd, h⟩
          omega
    · cases e; exact hb

/-- In debug builds every entry of a reachable collection has inner nodes. -/
theorem CReachable.big (hC : CReachable cfg c) (hd : cfg.ndebug = false) : ∀ k, k < c.nrBdds → c.Big k := by
  induction hC with
  | init => intro k hk; simp [Coll.nrBdds, Coll.init] at hk
  | @add env c c' u a p nr s' hC _ hR hp h2 e ih =>
    obtain ⟨t, ht⟩ := hR.good.any hp
    obtain ⟨c1, d0, d1, L, e1, h⟩ := added (cfg := env) hR.good hC.inv ht h2
    rw [e1] at e
    cases e
    intro k hk
    rw [h.nr] at hk
    rcases Nat.lt_or_ge k c.nrBdds with h' | h'
    · exact (h.same k h').big (ih k h')
    · have : k = c.nrBdds := by omega
      subst this
      intro a b he
      obtain ⟨rfl, rfl⟩ := he.unique h.entry
      have := h.size
      have := List.length_pos_iff.2 h.ne
      omega
  | @step env c c' op hC he hl e ih =>
    have hd : env.ndebug = false := he.trans hd
    have hC : CReachable env c := hC.congr he.symm
    cases op with
    | and i j limit =>
      obtain ⟨o, c1, e1, e2⟩ := bind_ok_inv e
      cases e2
      obtain ⟨K, c1, t, ha, hs⟩ := and2 hC hl.1 hl.2
      exact hs.big ha hd ih e1
    | andRange l limit =>
      obtain ⟨o, c1, e1, e2⟩ := bind_ok_inv e
      cases e2
      by_cases h2 : 2 ≤ l.length
      · by_cases h49 : l.length ≤ 49
        · obtain ⟨K, c1, t, ha, hs⟩ := andN hC hl h2 h49
          exact hs.big ha hd ih e1
        · rw [bddAndRange_many (by omega)] at e1; cases e1
      · match l, e1 with
        | [], e1 => cases e1
        | [a], e1 => cases e1; exact ih
        | _ :: _ :: _, _ => simp at h2
    | rebaseVec nr m =>
      obtain ⟨c1, e1, h⟩ := cRebase_ok (cfg := env) hC.inv hl.1 hl.2
      rw [show COp.run env (.rebaseVec nr m) c = cRebase env nr (fun v => m[v]?) c from rfl, e1] at e
      cases e
      intro k hk a b he
      unfold Coll.nrBdds Coll.Entry at *
      rw [h.del] at hk he
      exact ih k hk a b he
    | rebaseMap nr m =>
      obtain ⟨c1, e1, h⟩ := cRebase_ok (cfg := env) hC.inv hl.1 hl.2
      rw [show COp.run env (.rebaseMap nr m) c = cRebase env nr (fun v => m.lookup v) c from rfl, e1] at e
      cases e
      intro k hk a b he
      unfold Coll.nrBdds Coll.Entry at *
      rw [h.del] at hk he
      exact ih k hk a b he
    | remove l =>
      rw [show COp.run env (.remove l) c = cRemove env l c from rfl] at e
      by_cases hne : l = []
      · subst hne
        rw [C47_remove_nothing] at e
        cases e; exact ih
      · by_cases hm : c.nrBdds - 1 ∈ l
        · have hlast : l.getLast? = some (c.nrBdds - 1) := by
            obtain ⟨k, hk⟩ : ∃ k, l.getLast? = some k := ⟨_, List.getLast?_eq_some_getLast hne⟩
            rw [hk]
            have h1 := hl.2.1 k (List.mem_of_getLast? hk)
            have hle : l.Pairwise (· ≤ ·) := hl.1.imp (fun h => Nat.le_of_lt h)
            obtain ⟨l', rfl⟩ : ∃ l', l = l' ++ [k] := List.getLast?_eq_some_iff.1 hk
            have : c.nrBdds - 1 ≤ k := by
              rcases List.mem_append.1 hm with hi | hi
              · exact (List.pairwise_append.1 hle).2.2 _ hi k (by simp)
              · simp at hi; omega
            congr 1; omega
          obtain ⟨c1, e1, _, h1, h2⟩ := cRemove_ok (cfg := env) hC.inv hl.1 hlast hl.2.1 hl.2.2
          rw [e1] at e
          cases e
          intro k hk
          rw [h1] at hk
          obtain ⟨old, ho⟩ : ∃ old, (keptOf c.nrBdds 0 l)[k]? = some old := ⟨_, List.getElem?_eq_getElem hk⟩
          refine (h2 k old ho).big (ih old ?_)
          have := List.mem_of_getElem? ho
          simp only [keptOf, List.mem_filter, List.mem_range'_1] at this
          omega
        · rcases C47_remove_other hC hl hne hm with h | h
          · rw [h] at e; cases e
          · rw [h] at e; cases e
    | orVar i pos neg =>
      obtain ⟨o, c1, e1, e2⟩ := bind_ok_inv e
      cases e2
      obtain ⟨d0, d1, he, hw⟩ := hC.inv.wf i hl.1
      obtain ⟨t, et, a1, a2, a3, a4, a5, a6, e3⟩ := bddOrVar_ok (cfg := env) hC.inv he hl.2
      rw [e3] at e1
      cases e1
      intro k hk
      rw [append_nrBdds hC.inv] at hk
      rcases Nat.lt_or_ge k c.nrBdds with h | h
      · exact (append_same hC.inv h).big (ih k h)
      · have : k = c.nrBdds := by omega
        subst this
        intro a b hab
        obtain ⟨rfl, rfl⟩ := hab.unique (append_entry hC.inv)
        rw [orIns_length hw]
        have := ih i hl.1 _ _ he
        omega

/-! ## C49 -/

/-- C49: `variables(nr)` is the strictly increasing list of the variables of entry `nr`; `nr_bdd_nodes(nr, v)` is the number of positions of the entry
labelled `v`; `nr_bdd_nodes(nr)` is the length of the entry, which is the sum of these over `variables(nr)` plus two. None of the calls changes the
collection. -/
theorem C49_queries (hC : CReachable cfg c) {nr : Nat} (hn : nr < c.nrBdds) :
    ∃ vs cnt k, cVariables cfg nr c = .ok vs c ∧ vs.Pairwise (· < ·) ∧ (∀ v, v ∈ vs ↔ c.Var nr v) ∧
      (∀ v, v < cBot → cNrNodesVar cfg nr v c = .ok (cnt v) c ∧
        ∃ ps : List Nat, ps.Nodup ∧ ps.length = cnt v ∧ ∀ j, j ∈ ps ↔ ∃ e, c.At nr j e ∧ e.Inner ∧ e.index = v) ∧
      cNrNodes cfg nr c = .ok k c ∧ c.Size nr k ∧ k = (vs.map cnt).sum + 2 := by
  obtain ⟨d0, d1, he, hw⟩ := hC.inv.wf nr hn
  have two := hw.two
  have hl := hw.len
  obtain ⟨vs, e1, h1, h2⟩ := cVariables_ok (cfg := cfg) hC.inv he (by
    cases hd : cfg.ndebug with
    | true => exact Or.inl rfl
    | false => exact Or.inr (hC.big hd nr hn d0 d1 he))
  refine ⟨vs, fun v => ((seg c d0 d1).filter (fun e => e.index == v)).length, d1 - d0, e1, h1, h2, ?_, cNrNodes_ok he, ⟨d0, d1, he, by omega⟩, ?_⟩
  · intro v hv
    refine ⟨cNrNodesVar_ok hC.inv he v, ?_⟩
    obtain ⟨ps, g1, g2, g3⟩ := filter_positions (fun e => e.index == v) (seg c d0 d1) d0
    refine ⟨ps, g1, g3, ?_⟩
    intro j
    rw [g2]
    constructor
    · rintro ⟨a, e, b, d⟩
      have hat := (seg_at he hl _ e).1 b
      rw [show d0 + (j - d0) = j by omega] at hat
      simp at d
      exact ⟨e, hat, Instr.inner_of_lt (by omega), d⟩
    · rintro ⟨e, hat, _, rfl⟩
      obtain ⟨x, y, q1, q2, q3, q4⟩ := hat
      obtain ⟨rfl, rfl⟩ := he.unique q1
      refine ⟨q2, e, ?_, by simp⟩
      rw [seg_get (by omega), show d0 + (j - d0) = j by omega]; exact q4
  · rw [sum_filter _ vs (h1.imp fun h => Nat.ne_of_lt h)]
    have hsplit : seg c d0 d1 = seg c d0 (d1 - 2) ++ (seg c d0 d1).drop (d1 - 2 - d0) := by
      have : seg c d0 (d1 - 2) = (seg c d0 d1).take (d1 - 2 - d0) := by
        unfold seg; rw [List.take_take]; congr 1; omega
      rw [this, List.take_append_drop]
    have hA : (seg c d0 (d1 - 2)).filter (fun e => vs.contains e.index) = seg c d0 (d1 - 2) := by
      rw [List.filter_eq_self]
      intro e hm
      simp only [List.contains_iff_mem]
      exact (h2 _).2 ((inner_seg hC.inv he e.index).1 ⟨e, hm, rfl⟩)
    have hB : ((seg c d0 d1).drop (d1 - 2 - d0)).filter (fun e => vs.contains e.index) = [] := by
      rw [List.filter_eq_nil_iff]
      intro e hm
      simp only [List.contains_iff_mem]
      intro hmem
      obtain ⟨i, hi⟩ := List.mem_iff_getElem?.1 hm
      rw [List.getElem?_drop] at hi
      have hat := (seg_at he hl _ e).1 hi
      obtain ⟨x, y, q1, q2, q3, q4⟩ := hat
      obtain ⟨rfl, rfl⟩ := he.unique q1
      have hni : ¬ e.Inner := fun h => by
        have := (hw.inner_iff q2 q3 q4).1.1 h
        omega
      obtain ⟨j, e', ha, hin, heq⟩ := (h2 _).1 hmem
      apply hni
      unfold Instr.Inner at hin ⊢
      rwa [heq] at hin
    rw [hsplit, List.filter_append, hA, hB, List.append_nil, seg_length (by omega)]
    omega

/-- Entry 2 of the demo collection, (x0∧x1)∨x2, has three variables with one node each and five instructions. -/
theorem C49_example (nd : Bool) : ∃ vs, cVariables (envOf nd) 2 (demoC nd) = .ok vs (demoC nd) ∧ (∀ v, v ∈ vs ↔ (demoC nd).Var 2 v) ∧
    cNrNodes (envOf nd) 2 (demoC nd) = .ok 5 (demoC nd) := by
  obtain ⟨vs, cnt, k, h1, _, h3, _, h5, ⟨d0, d1, he, hk⟩, _⟩ := C49_queries (demoC_reachable nd) (nr := 2) (by rw [demoC_nrBdds]; omega)
  refine ⟨vs, h1, h3, ?_⟩
  have hd : (demoC nd).del = [0, 4, 8, 13, 16] := by cases nd <;> decide +kernel
  have : k = 5 := by
    obtain ⟨g1, g2⟩ := he
    rw [hd] at g1 g2
    simp at g1 g2
    omega
  rw [h5, this]

/-! ## C51 -/

theorem mkEntry_ok {nr : Nat} (h : nr < c.nrBdds) : mkEntry cfg nr c = .ok () c := by
  have : (M.assert cfg.ndebug (decide (nr < c.nrBdds)) : M Coll Unit) c = .ok () c := by simp [M.assert, h]
  exact this

theorem mkNode_ok {nr d0 d1 i : Nat} (he : c.Entry nr d0 d1) (h0 : d0 ≤ i) (h1 : i < d1) : mkNode cfg nr i c = .ok i c := by
  unfold mkNode
  rw [M.bind_ok (dlm_ok1 he), M.bind_ok (dlm_ok0 he), M.assert_bind_apply (by simpa using h1), M.assert_bind_apply (by simpa using h0)]
  rfl

theorem entryBotsink_eq {nr d0 d1 : Nat} {e : Instr} (he : c.Entry nr d0 d1) (h2 : d0 + 2 ≤ d1) (hi : c.ins[d1 - 2]? = some e) :
    entryBotsink cfg nr c = if cfg.ndebug || e.isBot then .ok (d1 - 2) c else .assertFail := by
  unfold entryBotsink
  rw [M.bind_ok (mkEntry_ok he.lt), M.bind_ok (dlm_ok1 he), M.bind_ok (mkNode_ok he (by omega) (by omega)), M.bind_ok (insAt_ok hi)]
  cases h : (cfg.ndebug || e.isBot) with
  | true => rw [M.bind_ok (a := ()) (s' := c) (by unfold M.assert; rw [if_pos h])]; rfl
  | false =>
    have : (M.assert cfg.ndebug e.isBot : M Coll Unit) c = .assertFail := by unfold M.assert; rw [if_neg (by rw [h]; simp)]
    show M.bind (M.assert cfg.ndebug e.isBot) _ c = _
    unfold M.bind
    rw [this]; rfl

theorem entryTopsink_eq {nr d0 d1 : Nat} {e : Instr} (he : c.Entry nr d0 d1) (h2 : d0 + 2 ≤ d1) (hi : c.ins[d1 - 1]? = some e) :
    entryTopsink cfg nr c = if cfg.ndebug || e.isTop then .ok (d1 - 1) c else .assertFail := by
  unfold entryTopsink
  rw [M.bind_ok (mkEntry_ok he.lt), M.bind_ok (dlm_ok1 he), M.bind_ok (mkNode_ok he (by omega) (by omega)), M.bind_ok (insAt_ok hi)]
  cases h : (cfg.ndebug || e.isTop) with
  | true => rw [M.bind_ok (a := ()) (s' := c) (by unfold M.assert; rw [if_pos h])]; rfl
  | false =>
    have : (M.assert cfg.ndebug e.isTop : M Coll Unit) c = .assertFail := by unfold M.assert; rw [if_neg (by rw [h]; simp)]
    show M.bind (M.assert cfg.ndebug e.isTop) _ c = _
    unfold M.bind
    rw [this]; rfl

/-- A copy of an entry has the same sinks in the same order. -/
theorem SameEntry.sinks {nr nr' d0 d1 : Nat} {a b : Instr} (h : SameEntry c nr c' nr') (he : c.Entry nr d0 d1) (h2 : d0 + 2 ≤ d1)
    (ha : c.ins[d1 - 2]? = some a) (hb : c.ins[d1 - 1]? = some b) :
    ∃ d0' d1' a' b', c'.Entry nr' d0' d1' ∧ d0' + 2 ≤ d1' ∧ c'.ins[d1' - 2]? = some a' ∧ c'.ins[d1' - 1]? = some b' ∧ a'.index = a.index ∧ b'.index = b.index := by
  obtain ⟨x, x', n, h1, h1', h3⟩ := h
  obtain ⟨rfl, rfl⟩ := he.unique h1
  obtain ⟨e, e', p1, p2, p3, _⟩ := h3 (n - 2) (by omega)
  obtain ⟨f, f', q1, q2, q3, _⟩ := h3 (n - 1) (by omega)
  rw [show d0 + (n - 2) = d0 + n - 2 by omega, ha] at p1
  rw [show d0 + (n - 1) = d0 + n - 1 by omega, hb] at q1
  cases p1; cases q1
  refine ⟨x', x' + n, e', f', h1', by omega, ?_, ?_, p3, q3⟩
  · rw [← p2]; congr 1; omega
  · rw [← q2]; congr 1; omega

/-- C51 for entries that come from `add_bdd` (and all later copies of them, see C46, C47): `botsink()` is the position of the false sink of the entry,
`topsink()` that of the true sink. -/
theorem C51_sinks_partial {u : Use} {a : Api} {p nr nr'' : Nat} {s' : Mgr} {c'' : Coll} (hR : Reachable cfg u a) (hC : CReachable cfg c) (hp : a.Holds p)
    (h2 : 2 ≤ p) (e : addBdd cfg p (a.mgr, c) = .ok nr (s', c')) (hs : SameEntry c' nr c'' nr'') :
    ∃ i j ei ej, entryBotsink cfg nr'' c'' = .ok i c'' ∧ c''.At nr'' i ei ∧ ei.isBot = true ∧
      entryTopsink cfg nr'' c'' = .ok j c'' ∧ c''.At nr'' j ej ∧ ej.isTop = true := by
  obtain ⟨t, ht⟩ := hR.good.any hp
  obtain ⟨c1, d0, d1, L, e1, h⟩ := added (cfg := cfg) hR.good hC.inv ht h2
  rw [e1] at e
  cases e
  have := h.size
  obtain ⟨x0, x1, ea, eb, g1, g2, g3, g4, g5, g6⟩ := hs.sinks h.entry (by omega) h.bot h.top
  have b1 : ea.isBot = true := by unfold Instr.isBot; rw [g5]; rfl
  have b2 : eb.isTop = true := by unfold Instr.isTop; rw [g6]; rfl
  refine ⟨x1 - 2, x1 - 1, ea, eb, ?_, ⟨x0, x1, g1, by omega, by omega, g3⟩, b1, ?_, ⟨x0, x1, g1, by omega, by omega, g4⟩, b2⟩
  · rw [entryBotsink_eq g1 g2 g3, b1, Bool.or_true]; rfl
  · rw [entryTopsink_eq g1 g2 g4, b2, Bool.or_true]; rfl

/-- Every entry made by a conjunction has its sinks exchanged: `botsink()` returns the true sink and `topsink()` the false sink; with assertions enabled
both calls abort. -/
theorem C51_and_exchanged {l : List Nat} {limit nr : Nat} (hC : CReachable cfg c) (hl : ∀ i ∈ l, i < c.nrBdds) (hlen : 2 ≤ l.length)
    (e : bddAndRange cfg l limit c = .ok (some nr) c') :
    (cfg.ndebug = true → ∃ i j ei ej, entryBotsink cfg nr c' = .ok i c' ∧ c'.At nr i ei ∧ ei.isTop = true ∧
      entryTopsink cfg nr c' = .ok j c' ∧ c'.At nr j ej ∧ ej.isBot = true) ∧
    (cfg.ndebug = false → entryBotsink cfg nr c' = .assertFail ∧ entryTopsink cfg nr c' = .assertFail) := by
  have h49 : l.length ≤ 49 := by
    refine Classical.byContradiction fun h => ?_
    rw [bddAndRange_many (by omega)] at e; cases e
  obtain ⟨K, c1, t, ha, hs⟩ := andN hC hl hlen h49
  have hsp := hs cfg limit
  simp only at hsp
  rw [hsp] at e
  have hcc : nr = c.nrBdds ∧ c' = c1 := by
    split at e
    · cases e
    · split at e
      · split at e
        · cases e
        · cases e; exact ⟨rfl, rfl⟩
      · cases e
  obtain ⟨rfl, rfl⟩ := hcc
  obtain ⟨ea, eb, g3, g4, g5, g6⟩ := ha.sinks
  have two := ha.two
  have n1 : ea.isBot = false := by unfold Instr.isBot; rw [g5]; decide
  have n2 : eb.isTop = false := by unfold Instr.isTop; rw [g6]; decide
  have b1 : ea.isTop = true := by unfold Instr.isTop; rw [g5]; rfl
  have b2 : eb.isBot = true := by unfold Instr.isBot; rw [g6]; rfl
  rw [entryBotsink_eq ha.entry (by omega) g3, entryTopsink_eq ha.entry (by omega) g4, n1, n2]
  refine ⟨fun hd => ?_, fun hd => ?_⟩
  · rw [hd]
    exact ⟨_, _, ea, eb, rfl, ⟨_, _, ha.entry, by omega, by omega, g3⟩, b1, rfl, ⟨_, _, ha.entry, by omega, by omega, g4⟩, b2⟩
  · rw [hd]; exact ⟨rfl, rfl⟩

/-- C51 is false: the conjunction of two entries of the demo collection. -/
theorem C51_refuted (nd : Bool) : ∃ c', bddAnd (envOf nd) 0 2 100 (demoC nd) = .ok (some 4) c' ∧
    (nd = true → ∃ i e, entryBotsink (envOf nd) 4 c' = .ok i c' ∧ c'.At 4 i e ∧ e.isTop = true) ∧ (nd = false → entryBotsink (envOf nd) 4 c' = .assertFail) := by
  have e4 : (match bddAnd (envOf nd) 0 2 100 (demoC nd) with | .ok (some r) _ => r == 4 | _ => false) = true := by
    cases nd <;> decide +kernel
  split at e4
  · rename_i r c' e
    simp at e4; subst e4
    have := C51_and_exchanged (demoC_reachable nd) (l := [0, 2]) (by intro i hi; rw [demoC_nrBdds]; simp at hi; omega) (by simp) e
    refine ⟨c', e, ?_, ?_⟩
    · rintro rfl
      obtain ⟨i, j, ei, ej, q1, q2, q3, _⟩ := this.1 rfl
      exact ⟨i, ei, q1, q2, q3⟩
    · rintro rfl
      exact (this.2 rfl).1
  · cases e4

/-- The hypotheses of `C51_sinks_partial` are met by adding x0∧x1 to the demo collection. -/
theorem C51_example (nd : Bool) : ∃ c' i e, addBdd (envOf nd) 5 ((demoOf nd).mgr, demoC nd) = .ok 4 ((demoOf nd).mgr, c') ∧
    entryBotsink (envOf nd) 4 c' = .ok i c' ∧ c'.At 4 i e ∧ e.isBot = true := by
  obtain ⟨t, ht⟩ := (demoOf_reachable nd).good.any (demoOf_holds nd 5 (by simp)).1
  obtain ⟨c', d0, d1, L, e, h⟩ := added (cfg := envOf nd) (demoOf_reachable nd).good (demoC_reachable nd).inv ht (by omega)
  have h' := h.wf
  rw [demoC_nrBdds] at e h'
  obtain ⟨i, j, ei, ej, q1, q2, q3, _⟩ := C51_sinks_partial (demoOf_reachable nd) (demoC_reachable nd) (demoOf_holds nd 5 (by simp)).1 (by omega) e (.refl h')
  exact ⟨c', i, ei, e, q1, q2, q3⟩

/-! ## C58: export_graphviz -/

theorem graphvizArcs_eq (hC : CReachable cfg c) {nr d0 d1 : Nat} (he : c.Entry nr d0 d1) (hb : c.Big nr) :
    graphvizArcs cfg nr c = .ok (((seg c d0 d1).zipIdx 0).flatMap fun (e, i) =>
      if e.isTerm then [] else [(i, false, e.hi - d0), (i, true, e.lo - d0)]) c := by
  obtain ⟨hw, hl⟩ := entry_seg hC.inv he
  have two := hw.two
  unfold graphvizArcs
  rw [M.get_bind_apply, M.assert_bind_apply (by simpa using he.lt), M.bind_ok (dlm_ok0 he), M.bind_ok (dlm_ok1 he),
    M.bind_ok (insRange_ok _ _ (by omega))]
  rw [M.assert_bind_apply (by
    rw [List.all_eq_true]
    intro e hm
    obtain ⟨i, hi⟩ := List.mem_iff_getElem?.1 hm
    obtain ⟨x, y, q1, q2, q3, q4⟩ := (seg_at he hl i e).1 hi
    obtain ⟨rfl, rfl⟩ := he.unique q1
    have hii := hw.inner_iff q2 q3 q4
    cases ht : e.isTerm with
    | false => rfl
    | true =>
      have hni : ¬ e.Inner := fun h => by have := hii.1.1 h; have := hii.2.1 ht; omega
      unfold Instr.Inner at hni
      by_cases h1 : e.index = cBot
      · simp [Instr.isBot, h1]
      · by_cases h2 : e.index = cTop
        · simp [Instr.isTop, h2]
        · exact absurd ⟨h1, h2⟩ hni)]
  rw [if_neg ?_]
  · rfl
  · rw [List.all_eq_true]
    intro h
    have hbig := hb _ _ he
    obtain ⟨e, k1, k2, k3, _⟩ := hw.inner d0 (Nat.le_refl _) hbig
    have : e ∈ seg c d0 d1 := List.mem_iff_getElem?.2 ⟨0, by rw [seg_get (by omega)]; exact k1⟩
    have := h e this
    unfold Instr.isTerm at this
    simp at this; exact k3 this

/-- C58: `export_graphviz` of an entry with inner nodes writes exactly the two arcs of every inner node (positions relative to the entry; `true` marks
the dashed arc), each once. -/
theorem C58_graphviz (hC : CReachable cfg c) {nr d0 d1 : Nat} (he : c.Entry nr d0 d1) (hb : c.Big nr) :
    ∃ L, graphvizArcs cfg nr c = .ok L c ∧ L.Nodup ∧
      ∀ i dashed k, (i, dashed, k) ∈ L ↔ ∃ e, c.At nr (d0 + i) e ∧ e.Inner ∧ d0 + k = if dashed then e.lo else e.hi := by
  obtain ⟨hw, hl⟩ := entry_seg hC.inv he
  refine ⟨_, graphvizArcs_eq hC he hb, ?_, ?_⟩
  · unfold List.Nodup
    rw [List.pairwise_flatMap]
    refine ⟨?_, ?_⟩
    · rintro ⟨e, i⟩ _
      dsimp only
      split <;> simp
    · have : ((seg c d0 d1).zipIdx 0).Pairwise (fun a b => a.2 ≠ b.2) := by
        have h1 : (((seg c d0 d1).zipIdx 0).map (·.2)).Nodup := by
          rw [List.zipIdx_map_snd]; exact List.nodup_range'
        exact List.pairwise_map.1 h1
      refine this.imp ?_
      rintro ⟨e, i⟩ ⟨e', i'⟩ hne x hx y hx' rfl
      dsimp only at hx hx' hne
      have e1 : x.1 = i := by
        split at hx
        · simp at hx
        · simp at hx; rcases hx with rfl | rfl <;> rfl
      have e2 : x.1 = i' := by
        split at hx'
        · simp at hx'
        · simp at hx'; rcases hx' with rfl | rfl <;> rfl
      exact hne (e1 ▸ e2)
  · intro i dashed k
    rw [List.mem_flatMap]
    have hinn : ∀ {i : Nat} {e : Instr}, c.At nr (d0 + i) e → (e.isTerm = false ↔ e.Inner) ∧ (e.Inner → d0 ≤ e.lo ∧ d0 ≤ e.hi) := by
      rintro i e ⟨x, y, q1, q2, q3, q4⟩
      obtain ⟨rfl, rfl⟩ := he.unique q1
      have hii := hw.inner_iff q2 q3 q4
      refine ⟨⟨fun h => hii.1.2 ?_, fun h => ?_⟩, fun h => ?_⟩
      · rcases Nat.lt_or_ge (d0 + i + 2) d1 with g | g
        · exact g
        · rw [hii.2.2 g] at h; cases h
      · cases ht : e.isTerm with
        | false => rfl
        | true => have := hii.1.1 h; have := hii.2.1 ht; omega
      · have := hw.node q2 q3 q4 h; omega
    constructor
    · rintro ⟨⟨e, j⟩, hm, hx⟩
      dsimp only at hx
      rw [List.mem_zipIdx_iff_getElem?] at hm
      have hat := (seg_at he hl j e).1 hm
      obtain ⟨h1, h2⟩ := hinn hat
      split at hx
      · simp at hx
      · rename_i ht
        have hin := h1.1 (by simpa using ht)
        have := h2 hin
        simp at hx
        rcases hx with ⟨rfl, rfl, rfl⟩ | ⟨rfl, rfl, rfl⟩
        · exact ⟨e, hat, hin, by simp; omega⟩
        · exact ⟨e, hat, hin, by simp; omega⟩
    · rintro ⟨e, hat, hin, hk⟩
      obtain ⟨h1, h2⟩ := hinn hat
      refine ⟨(e, i), ?_, ?_⟩
      · rw [List.mem_zipIdx_iff_getElem?]; exact (seg_at he hl i e).2 hat
      · dsimp only
        rw [h1.2 hin]
        have := h2 hin
        cases dashed
        · simp at hk ⊢; omega
        · simp at hk ⊢; omega

/-- Entry 2 of the demo collection has three inner nodes, hence six arcs. -/
theorem C58_graphviz_example (nd : Bool) : ∃ L, graphvizArcs (envOf nd) 2 (demoC nd) = .ok L (demoC nd) ∧ L.Nodup ∧ L.length = 6 := by
  have hd : (demoC nd).del = [0, 4, 8, 13, 16] := by cases nd <;> decide +kernel
  have he : (demoC nd).Entry 2 8 13 := ⟨by rw [hd]; rfl, by rw [hd]; rfl⟩
  obtain ⟨L, e, h, _⟩ := C58_graphviz (demoC_reachable nd) he (demoC_big_reduced nd 2 (by omega)).1
  refine ⟨L, e, h, ?_⟩
  have : (match graphvizArcs (envOf nd) 2 (demoC nd) with | .ok L _ => L.length == 6 | _ => false) = true := by cases nd <;> decide +kernel
  rw [e] at this
  simpa using this

/-- An entry without inner nodes (in release builds the conjunction of an entry with its negation makes one): the call reads out of range. -/
theorem C58_graphviz_no_inner (hC : CReachable cfg c) {nr d0 d1 : Nat} (he : c.Entry nr d0 d1) (hb : d1 = d0 + 2) : graphvizArcs cfg nr c = .ub := by
  obtain ⟨hw, hl⟩ := entry_seg hC.inv he
  have key : ∀ e ∈ seg c d0 d1, e.isTerm = true ∧ (e.isTop = true ∨ e.isBot = true) := by
    intro e hm
    obtain ⟨i, hi⟩ := List.mem_iff_getElem?.1 hm
    obtain ⟨x, y, q1, q2, q3, q4⟩ := (seg_at he hl i e).1 hi
    obtain ⟨rfl, rfl⟩ := he.unique q1
    have hii := hw.inner_iff q2 q3 q4
    refine ⟨hii.2.2 (by omega), ?_⟩
    have hni : ¬ e.Inner := fun h => by have := hii.1.1 h; omega
    unfold Instr.Inner at hni
    by_cases h1 : e.index = cBot
    · exact Or.inr (by simp [Instr.isBot, h1])
    · by_cases h2 : e.index = cTop
      · exact Or.inl (by simp [Instr.isTop, h2])
      · exact absurd ⟨h1, h2⟩ hni
  unfold graphvizArcs
  rw [M.get_bind_apply, M.assert_bind_apply (by simpa using he.lt), M.bind_ok (dlm_ok0 he), M.bind_ok (dlm_ok1 he),
    M.bind_ok (insRange_ok _ _ (by omega))]
  rw [M.assert_bind_apply (by
    rw [List.all_eq_true]
    intro e hm
    obtain ⟨h1, h2⟩ := key e hm
    rcases h2 with h | h <;> simp [h])]
  rw [if_pos (by rw [List.all_eq_true]; exact fun e hm => (key e hm).1)]
  rfl
end
end LBDD
