import Verif.Props.CollDemo
import Verif.Props.Canon
import Verif.Props.Query
import Verif.Proof.Coll.Anded
/-!
# Collections: import, export, conjunction (C39–C46)
-/
namespace LBDD
section
variable {cfg : Cfg} {u : Use} {a a' : Api} {c c' : Coll} {p : Nat}

/-! ## C39 -/

/-- C39: `add_bdd(f)` of a non-constant BDD appends one entry, which evaluates like `f`, has the variables of `f`, as many nodes as `f` plus the two
sinks, no redundant, duplicate or unreachable node, and is ordered when the history respects the order. The manager is not changed. -/
theorem C39_add_bdd (hR : Reachable cfg u a) (hC : CReachable cfg c) (hp : a.Holds p) (h2 : 2 ≤ p) :
    ∃ c' k, addBdd cfg p (a.mgr, c) = .ok c.nrBdds (a.mgr, c') ∧ c'.nrBdds = c.nrBdds + 1 ∧
      (∀ x, Covers a.mgr x → cEvaluate cfg c' c.nrBdds x = evaluate cfg a.mgr p x) ∧
      (∀ v, c'.Var c.nrBdds v ↔ Occurs a.mgr p v) ∧
      nrNodes cfg p a.mgr = .ok k a.mgr ∧ cNrNodes cfg c.nrBdds c' = .ok (k + 2) c' ∧
      c'.Wf c.nrBdds ∧ c'.Reduced c.nrBdds ∧ c'.Connected c.nrBdds ∧ (u = .ordered → c'.Ordered c.nrBdds) := by
  obtain ⟨t, ht⟩ := hR.good.any hp
  obtain ⟨c', d0, d1, L, e, h⟩ := added (cfg := cfg) hR.good hC.inv ht h2
  obtain ⟨l, hl, hn⟩ := C24_nr_nodes hR hp (Or.inr h2)
  refine ⟨c', l.length, e, h.nr, ?_, h.var, hn, ?_, h.wf, h.reduced, h.connected, fun hu => h.ordered (Use.ordered_iff.2 hu)⟩
  · intro x hx
    have := evals_repr hR.good ht hx
    rw [show evaluate cfg a.mgr p x = _ from this]
    exact cEvaluate_ok h.entry (h.wf.entry h.entry) h.repr (fun v hv => Nat.lt_of_lt_of_le (hR.good.mem_lt ht hv) hx)
  · rw [cNrNodes_ok h.entry]
    have h3 : l.length = L.length := Lists.length_eq ⟨hl.1, hl.2⟩ h.lists
    have : d1 - d0 = l.length + 2 := by rw [h3, h.size]; omega
    rw [this]

/-- The hypotheses of C39 are met by three different BDDs of the demo manager and a collection that already has four entries. -/
theorem C39_example (nd : Bool) : ∃ c', addBdd (envOf nd) 9 ((demoOf nd).mgr, demoC nd) = .ok 4 ((demoOf nd).mgr, c') ∧ c'.nrBdds = 5 ∧
    ∀ x, Covers (demoOf nd).mgr x → cEvaluate (envOf nd) c' 4 x = evaluate (envOf nd) (demoOf nd).mgr 9 x := by
  obtain ⟨c', k, e, h1, h2, _⟩ := C39_add_bdd (demoOf_reachable nd) (demoC_reachable nd) (demoOf_holds nd 9 (by simp)).1 (by omega)
  rw [demoC_nrBdds] at e h1 h2
  exact ⟨c', e, h1, h2⟩

/-! ## C40 -/

/-- C40: exporting a BDD that was added, into the same manager at any later time (the BDD being referenced at garbage collections in between) and from any later copy of the entry (see C46, C47), returns the
very handle and allocates nothing. -/
theorem C40_round_trip (hR : Reachable cfg u a) (hC : CReachable cfg c) (hp : a.Holds p) (h2 : 2 ≤ p) {nr nr'' : Nat} {s' : Mgr} {c'' : Coll}
    (e : addBdd cfg p (a.mgr, c) = .ok nr (s', c')) (hl : Later cfg u p a a') (hs : SameEntry c' nr c'' nr'') :
    exportBdd cfg c'' nr'' a'.mgr = .ok p a'.mgr := by
  obtain ⟨t, ht⟩ := hR.good.any hp
  obtain ⟨c1, d0, d1, L, e1, h⟩ := added (cfg := cfg) hR.good hC.inv ht h2
  rw [e1] at e
  cases e
  obtain ⟨hR', _, hg, _⟩ := hl.good hR (hR.good.live_of ht)
  obtain ⟨x0, x1, y0, y1, g1, g2, g3⟩ := hs.entries
  obtain ⟨rfl, rfl⟩ := h.entry.unique g1
  have hw := h.wf
  have hne : 0 < L.length := List.length_pos_iff.2 h.ne
  have hsz := h.size
  have hwf := (hs.wf hw).entry g2
  have := hwf.two
  exact exportBdd_hit hR'.good (hs.wf hw) g2 (by omega) (hs.connected hw h.connected) (hs.repr hw h.entry g2.1 h.repr) (hg t ht)

/-- Exporting any entry with inner nodes into any manager that has its variables: the returned BDD evaluates like the entry. (In ordered use the entry
must be ordered.) -/
theorem C40_export_any (hR : Reachable cfg u a) (hC : CReachable cfg c) {nr : Nat} (hn : nr < c.nrBdds) (hb : c.Big nr)
    (hv : ∀ v, c.Var nr v → v < a.mgr.nvars) (ho : u = .ordered → c.Ordered nr) :
    Returns (exportBdd cfg c nr a.mgr) (fun r s' => s'.nvars = a.mgr.nvars ∧ ∀ x, Covers s' x → evaluate cfg s' r x = cEvaluate cfg c nr x) := by
  obtain ⟨d0, d1, he, hwr⟩ := hC.inv.wf nr hn
  refine (exportBdd_ok hR.good (hC.inv.wf nr hn) he (hb d0 d1 he) (fun h => ho (Use.ordered_iff.1 h)) hv).returns ?_
  rintro r s' hx hi' ⟨t, t', h1, h2, h3⟩
  refine ⟨hx.nvars, ?_⟩
  intro x hc
  have hcov : CCovers c nr x := fun v h => Nat.lt_of_lt_of_le (hv v h) (by rw [← hx.nvars]; exact hc)
  rw [cEvaluate_ok he hwr h1 (hcov.mem he hwr h1)]
  have := evals_repr hi' h2 hc
  rw [show evaluate cfg s' r x = _ from this, h3.eval]; rfl

/-- The round trip on a concrete BDD and collection. -/
theorem C40_example (nd : Bool) : ∃ c', addBdd (envOf nd) 9 ((demoOf nd).mgr, demoC nd) = .ok 4 ((demoOf nd).mgr, c') ∧
    exportBdd (envOf nd) c' 4 (demoOf nd).mgr = .ok 9 (demoOf nd).mgr := by
  obtain ⟨t, ht⟩ := (demoOf_reachable nd).good.any (demoOf_holds nd 9 (by simp)).1
  obtain ⟨c', d0, d1, L, e, h⟩ := added (cfg := envOf nd) (demoOf_reachable nd).good (demoC_reachable nd).inv ht (by omega)
  have h' := h.wf
  rw [demoC_nrBdds] at e h'
  exact ⟨c', e, C40_round_trip (demoOf_reachable nd) (demoC_reachable nd) (demoOf_holds nd 9 (by simp)).1 (by omega) e .refl (.refl h')⟩

/-! ## C41 -/

/-- C41, for histories without `xor_rec`, ordered entries and, in debug builds, entries that end before position 1002 (see `C41_refuted`):
`mgr.add_bdd(collection, nr)` returns a BDD that evaluates like the entry. -/
theorem C41_import_partial (hu : u = .ordered ∨ u = .unordered) (hR : Reachable cfg u a) (hC : CReachable cfg c) {nr : Nat} (hn : nr < c.nrBdds)
    (ho : c.Ordered nr) (hv : ∀ v, c.Var nr v → v < topsinkIndex) (hd : cfg.ndebug = true ∨ ∀ d1, c.del[nr + 1]? = some d1 → d1 ≤ 1002) :
    Returns (mgrAddBdd cfg c nr a.mgr) (fun r s' => ∀ x, Covers s' x → CCovers c nr x → evaluate cfg s' r x = cEvaluate cfg c nr x) := by
  obtain ⟨d0, d1, he, hwr⟩ := hC.inv.wf nr hn
  have hmd : OrMode u.md := Use.orMode hu
  refine (mgrAddBdd_ok hmd hR.good (hC.inv.wf nr hn) he ho hv (by rcases hd with h | h; exact Or.inl h; exact Or.inr (h d1 he.2))).returns ?_
  rintro r s' hx hi' ⟨t, t', h1, h2, h3⟩ x hc hcov
  rw [cEvaluate_ok he hwr h1 (hcov.mem he hwr h1)]
  have := evals_repr hi' h2 hc
  rw [show evaluate cfg s' r x = _ from this, h3.eval]; rfl

/-- Importing entry 2 of the demo collection into the demo manager. -/
theorem C41_example (nd : Bool) : Returns (mgrAddBdd (envOf nd) (demoC nd) 2 (demoOf nd).mgr) (fun r s' =>
    ∀ x, Covers s' x → CCovers (demoC nd) 2 x → evaluate (envOf nd) s' r x = cEvaluate (envOf nd) (demoC nd) 2 x) := by
  refine C41_import_partial (Or.inl rfl) (demoOf_reachable nd) (demoC_reachable nd) (by rw [demoC_nrBdds]; omega) (demoC_ordered nd 2 (by omega)) ?_
    (Or.inr ?_)
  · intro v hv
    have := demoC_vars nd 2 (by omega) v hv
    have : 3 < topsinkIndex := by unfold topsinkIndex; decide +kernel
    omega
  · intro d1 h
    have : (demoC nd).del[2 + 1]? = some 13 := by cases nd <;> decide +kernel
    rw [this] at h; cases h; omega

/-- In debug builds an entry with inner nodes that ends after position 1002 always fails `assert(offset < 1000)`. -/
theorem C41_debug_limit (hd : cfg.ndebug = false) (hC : CReachable cfg c) {nr d0 d1 : Nat} (he : c.Entry nr d0 d1) (hb : d0 + 2 < d1) (h1 : 1002 < d1)
    (s : Mgr) : mgrAddBdd cfg c nr s = .assertFail := by
  have hwr := (hC.inv.wf nr he.lt).entry he
  obtain ⟨x, y, hx, hy, _, _, hxy⟩ := hwr.sinks
  obtain ⟨e, ee, e2, _⟩ := hwr.inner (d1 - 3) (by omega) (by omega)
  have hin := Instr.inner_of_lt e2
  obtain ⟨k, rfl⟩ : ∃ k, d1 = d0 + (k + 3) := ⟨d1 - d0 - 3, by omega⟩
  have hne := cBot_ne_cTop
  have hne' : ¬ cTop = cBot := fun h => hne h.symm
  have hsink : ∀ (j : Nat) (e : Instr) (h : List (Nat × Nat)), c.ins[d0 + j]? = some e → (e.index = cBot ∨ e.index = cTop) →
      ∃ q, importLoop cfg c d0 (j + 1) h s = importLoop cfg c d0 j (insertNew h (d0 + j) q) s := by
    intro j e h hj hi
    have h1 : insOf c (d0 + j) s = .ok e s := by unfold insOf; rw [hj]
    rcases hi with hi | hi
    · refine ⟨botId, ?_⟩
      conv => lhs; unfold importLoop
      rw [M.bind_ok h1]
      simp [Instr.isBot, hi]
    · refine ⟨topId, ?_⟩
      conv => lhs; unfold importLoop
      rw [M.bind_ok h1]
      simp [Instr.isBot, Instr.isTop, hi, hne']
  obtain ⟨q1, s1⟩ := hsink (k + 2) y [] (by rw [← hy]; congr 1) (by rcases hxy with h | h; exact Or.inr h.2; exact Or.inl h.2)
  obtain ⟨q2, s2⟩ := hsink (k + 1) x (insertNew [] (d0 + (k + 2)) q1) (by rw [← hx]; congr 1) (by rcases hxy with h | h; exact Or.inl h.1; exact Or.inr h.1)
  have s3 : ∀ h, importLoop cfg c d0 (k + 1) h s = .assertFail := by
    intro h
    have h1 : insOf c (d0 + k) s = .ok e s := by unfold insOf; rw [show d0 + k = d0 + (k + 3) - 3 by omega, ee]
    unfold importLoop
    rw [M.bind_ok h1]
    have b1 : e.isBot = false := by simp [Instr.isBot, hin.1]
    have b2 : e.isTop = false := by simp [Instr.isTop, hin.2]
    rw [b1, b2]
    simp only [Bool.false_eq_true, if_false]
    show M.bind _ _ _ = _
    unfold M.bind M.assert
    rw [hd, show decide (d0 + k < 1000) = false by simp; omega]
    rfl
  unfold mgrAddBdd
  rw [M.assert_bind_apply (by simpa using he.lt), M.bind_ok (show dlmOf c nr s = .ok d0 s by unfold dlmOf; rw [he.1]),
    M.bind_ok (show dlmOf c (nr + 1) s = .ok (d0 + (k + 3)) s by unfold dlmOf; rw [he.2])]
  show M.bind _ _ _ = _
  unfold M.bind
  rw [show d0 + (k + 3) - d0 = k + 3 by omega, s1, s2, s3]

/-- Collections can be arbitrarily long. -/
theorem long_collections (hR : Reachable cfg u a) (hp : a.Holds p) (h2 : 2 ≤ p) (n : Nat) :
    ∃ c nr d0 d1, CReachable cfg c ∧ c.Entry nr d0 d1 ∧ d0 + 2 < d1 ∧ n ≤ d1 ∧ d1 = c.ins.length := by
  obtain ⟨t, ht⟩ := hR.good.any hp
  induction n with
  | zero =>
    obtain ⟨c', d0, d1, L, e, h⟩ := added (cfg := cfg) hR.good CInv.init ht h2
    have hne : 0 < L.length := List.length_pos_iff.2 h.ne
    have hsz := h.size
    have hlast := (getLast_length_del h.inv).1
    rw [h.nr] at hlast
    refine ⟨c', _, d0, d1, .add .init rfl hR hp h2 e, h.entry, by omega, by omega, ?_⟩
    have := h.entry.2
    rw [hlast] at this; injection this with this; exact this.symm
  | succ n ih =>
    obtain ⟨c, nr, x0, x1, hc, _, _, h4, h5⟩ := ih
    obtain ⟨c', d0, d1, L, e, h⟩ := added (cfg := cfg) hR.good hc.inv ht h2
    have hne : 0 < L.length := List.length_pos_iff.2 h.ne
    have hsz := h.size
    have hlast := (getLast_length_del h.inv).1
    rw [h.nr] at hlast
    have e1 : d1 = c'.ins.length := by
      have := h.entry.2
      rw [hlast] at this; injection this with this; exact this.symm
    have e0 : d0 = c.ins.length := by
      have hx := (getLast_length_del hc.inv).1
      obtain ⟨L', hL', e'⟩ := addBdd_ok (cfg := cfg) hR.good hc.inv ht h2
      rw [e'] at e
      cases e
      have := (append_entry (c := c) (xs := encodeAll a.mgr.cells c.ins.length L') hc.inv).unique h.entry
      exact this.1.symm
    exact ⟨c', _, d0, d1, .add hc rfl hR hp h2 e, h.entry, by omega, by omega, e1⟩

/-- C41 fails in debug builds: there are collections (of small, ordered BDDs) and entries for which `mgr.add_bdd` always fails an assert, in every manager. -/
theorem C41_refuted : ∃ c nr, CReachable (envOf false) c ∧ nr < c.nrBdds ∧ ∀ s, mgrAddBdd (envOf false) c nr s = .assertFail := by
  obtain ⟨c, nr, d0, d1, h1, h2, h3, h4, _⟩ := long_collections (demoOf_reachable false) (demoOf_holds false 9 (by simp)).1 (by omega) 1003
  exact ⟨c, nr, h1, h2.lt, fun s => C41_debug_limit rfl h1 h2 h3 (by omega) s⟩
end
end LBDD
