import Verif.Props.Canon
/-!
# The capacity limit (C12)

A variable can hold at most 2^18 nodes; the next one makes `double_cache` throw. The theorems show that such an exception can only
occur then, that it does occur, and that the manager is left in a state in which the next call is undefined behaviour.
-/
namespace LBDD

section
variable {cfg : Cfg} {u : Use} {a : Api}

/-- In a reachable state no variable has more than 2^18 + 1 nodes. -/
theorem table_bound (hR : Reachable cfg u a) {v : Nat} (hv : v < a.mgr.nvars) {l : List Nat} (hn : l.Nodup)
    (hl : ∀ p ∈ l, 2 ≤ p ∧ (a.mgr.cells p).live = true ∧ (a.mgr.cells p).index = v) : l.length ≤ 262145 := by
  have ht := hR.good.tab v hv
  have h1 := stored_le ((a.mgr.tabs v).mask + 1) l hn (fun p hp => ht.slots.complete p (hl p hp))
  have h2 := ht.mask_le
  have h3 := ht.fill
  have h4 := ht.free
  omega

theorem sink_keys (hR : Reachable cfg u a) : (a.mgr.cells 0).hashKey = cfg.sinkHash false ∧ (a.mgr.cells 1).hashKey = cfg.sinkHash true := by
  induction hR with
  | init => exact ⟨rfl, rfl⟩
  | @step a a' op hR hl e ih =>
    obtain ⟨_, hg⟩ := step_good hR.good hl e
    obtain ⟨_, _, _, _, h0⟩ := hg.kept 0 (Or.inl (by omega))
    obtain ⟨_, _, _, _, h1⟩ := hg.kept 1 (Or.inl (by omega))
    exact ⟨h0.trans ih.1, h1.trans ih.2⟩

/-- A call that returns one handle either succeeds or throws the capacity exception. -/
theorem call_cases (hR : Reachable cfg u a) {f : Fn} {is ps : List Nat} (ha : a.args is = some ps) (hl : f.Pre cfg u a.mgr ps)
    {Q : Nat → Mgr → Prop} (hQ : ∀ r s s', CellsExt s.cells s'.cells → s'.nvars = s.nvars → Q r s → Q r s')
    (hm : M.Sat (f.run cfg ps) a.mgr (fun rs s' => ∃ r, rs = [r] ∧ Q r s') (Thrown cfg u.md a.count a.mgr)) :
    (∃ a' r, Reachable cfg u a' ∧ Grow a.mgr a'.mgr ∧ a'.hs = a.hs ++ [some r] ∧ Q r a'.mgr) ∨
    (∃ a', step cfg (.call f is) a = .throw a' ∧ Thrown cfg u.md a.count a.mgr a'.mgr) := by
  have hleg : Legal cfg u a (.call f is) := by
    intro ps' e; rw [ha] at e; cases e; exact hl
  have hst : step cfg (.call f is) a = (onMgr (f.run cfg ps) >>= fun rs => pushHandles rs) a := by
    simp only [step]; rw [M.get_bind_apply]; rw [ha]
  unfold M.Sat at hm
  cases e : f.run cfg ps a.mgr with
  | ok rs s1 =>
    rw [e] at hm
    obtain ⟨r, rfl, hq⟩ := hm
    have e1 : onMgr (f.run cfg ps) a = .ok [r] { a with mgr := s1 } := by unfold onMgr; rw [e]
    rw [M.bind_ok e1] at hst
    obtain ⟨g, i, an⟩ := Fn.run_lib hR.good f ps (hR.good.args ha) hl [r] s1 e
    obtain ⟨a2, e2, h2, x2, l2, _⟩ := pushHandles_good (cfg := cfg) (u := u) [r] (a := { a with mgr := s1 }) i an
    rw [e2] at hst
    refine Or.inl ⟨a2, r, .step hR hleg hst, g.trans x2.grow, l2, hQ r s1 a2.mgr x2.cells x2.nvars hq⟩
  | throw s1 =>
    rw [e] at hm
    refine Or.inr ⟨{ a with mgr := s1 }, ?_, hm⟩
    rw [hst]
    show M.bind _ _ a = _
    unfold M.bind onMgr
    rw [e]
  | assertFail => rw [e] at hm; exact hm.elim
  | ub => rw [e] at hm; exact hm.elim
  | hang => rw [e] at hm; exact hm.elim

/-- Some legal call throws the capacity exception. -/
def Throws (cfg : Cfg) (u : Use) : Prop :=
  ∃ a op a', Reachable cfg u a ∧ Legal cfg u a op ∧ step cfg op a = .throw a' ∧ Thrown cfg u.md a.count a.mgr a'.mgr

/-- The calls used below: projections on new variables and nodes of variable 0. -/
def BuildOp (a : Api) (op : Op) : Prop :=
  (∃ v, op = .call (.projection v) [] ∧ a.mgr.nvars ≤ v) ∨ ∃ is, op = .call (.uniqueFind 0) is

/-- None of the calls used below throws. -/
def NoThrow (cfg : Cfg) : Prop :=
  ∀ a op a', Reachable cfg .ordered a → BuildOp a op → Legal cfg .ordered a op → step cfg op a = .throw a' → Thrown cfg (Use.md .ordered) a.count a.mgr a'.mgr → False

/-- Handles `0..n-1` are the variables `1..n`. -/
def Projs (a : Api) (n : Nat) (f : Nat → Nat) : Prop :=
  ∀ i, i < n → a.hs[i]? = some (some (f i)) ∧ Repr a.mgr.cells (f i) (.node (i + 1) .bot .top)

theorem args_nil (a : Api) : a.args [] = some [] := rfl
theorem args_two {a : Api} {i j p q : Nat} (hi : a.hs[i]? = some (some p)) (hj : a.hs[j]? = some (some q)) : a.args [i, j] = some [p, q] := by
  simp [Api.args, hi, hj]

theorem sat_one {m : M Mgr Nat} {s : Mgr} {md : Md} {refs : Nat → Nat} {Q : Nat → Mgr → Prop} (h : M.Sat m s Q (Thrown cfg md refs s)) :
    M.Sat (do let r ← m; pure [r]) s (fun rs s' => ∃ r, rs = [r] ∧ Q r s') (Thrown cfg md refs s) := by
  refine M.Sat.bind h ?_
  intro r s' hq
  exact ⟨r, rfl, hq⟩

theorem build_projs (hT : NoThrow cfg) (n : Nat) (hn : n < 2000) : ∃ a f, Reachable cfg .ordered a ∧ Projs a n f ∧ a.hs.length = n ∧
    (n ≠ 0 → n < a.mgr.nvars) ∧ a.mgr.nvars ≤ n + 1 := by
  induction n with
  | zero => exact ⟨_, fun _ => 0, .init, fun i hi => by omega, rfl, fun h => absurd rfl h, Nat.zero_le _⟩
  | succ n ih =>
    obtain ⟨a, f, hR, hp, hlen, _, hle⟩ := ih (by omega)
    have hv : n + 1 < topsinkIndex := by unfold topsinkIndex; omega
    have hsat : M.Sat ((Fn.projection (n + 1)).run cfg []) a.mgr
        (fun rs s' => ∃ r, rs = [r] ∧ (Repr s'.cells r (.node (n + 1) .bot .top) ∧ s'.nvars = n + 2)) (Thrown cfg (Use.md .ordered) a.count a.mgr) := by
      refine sat_one ?_
      refine M.Sat.mono (projection_ok hR.good hv) ?_ (fun _ h => h)
      rintro r s' ⟨_, _, h1, h2, _⟩
      exact ⟨h1, by omega⟩
    rcases call_cases hR (f := .projection (n + 1)) (args_nil a) hv (fun r s s' hx hnv h => ⟨h.1.ext hx, by rw [hnv]; exact h.2⟩) hsat with
      ⟨a', r, hR', hg, hhs, hq⟩ | ⟨a', e, ht⟩
    · refine ⟨a', fun i => if i = n then r else f i, hR', ?_, by rw [hhs]; simp [hlen], fun _ => by have := hq.2; omega, by have := hq.2; omega⟩
      intro i hi
      by_cases h : i = n
      · subst h
        simp only [if_true]
        exact ⟨by rw [hhs, List.getElem?_append_right (by omega)]; simp [hlen], hq.1⟩
      · simp only [if_neg h]
        obtain ⟨h1, h2⟩ := hp i (by omega)
        exact ⟨by rw [hhs, List.getElem?_append_left (by omega)]; exact h1, h2.ext hg.cells⟩
    · exact (hT a (.call (.projection (n+1)) []) a' hR (Or.inl ⟨_, rfl, hle⟩) (show Legal cfg .ordered a (.call _ _) from fun ps e' => by rw [args_nil] at e'; cases e'; exact hv) e ht).elim

/-- children of the k-th hand-made node -/
def kid (f : Nat → Nat) (k : Nat) : Nat × Nat := (f (k % 512), f (512 + k / 512))

theorem build_nodes (hT : NoThrow cfg) (m : Nat) (hm : m ≤ 262146) : ∃ a f, ∃ l : List Nat, Reachable cfg .ordered a ∧ Projs a 1100 f ∧
    0 < a.mgr.nvars ∧ l.Nodup ∧ l.length = m ∧
    (∀ p ∈ l, 2 ≤ p ∧ (a.mgr.cells p).live = true ∧ (a.mgr.cells p).index = 0 ∧
      ∃ k, k < m ∧ ((a.mgr.cells p).lo, (a.mgr.cells p).hi) = kid f k) := by
  induction m with
  | zero =>
    obtain ⟨a, f, hR, hp, _, hnv, _⟩ := build_projs hT 1100 (by omega)
    exact ⟨a, f, [], hR, hp, by have := hnv (by omega); omega, by simp, rfl, by simp⟩
  | succ m ih =>
    obtain ⟨a, f, l, hR, hp, hnv, hn, hlen, hl⟩ := ih (by omega)
    have hk1 : m % 512 < 1100 := by omega
    have hk2 : 512 + m / 512 < 1100 := by omega
    obtain ⟨e1, r1⟩ := hp _ hk1
    obtain ⟨e2, r2⟩ := hp _ hk2
    have hne : f (m % 512) ≠ f (512 + m / 512) := by
      intro h
      rw [h] at r1
      have := r1.fn r2
      injection this with h1 _ _
      omega
    have hocc : ∀ p ∈ [f (m % 512), f (512 + m / 512)], ∀ w, Occurs a.mgr p w → 0 < w := by
      intro p hp' w hw
      simp only [List.mem_cons, List.not_mem_nil, or_false] at hp'
      rcases hp' with rfl | rfl
      · have := (occurs_iff r1 w).1 hw
        simp [Tree.Mem] at this; omega
      · have := (occurs_iff r2 w).1 hw
        simp [Tree.Mem] at this; omega
    have hpre : (Fn.uniqueFind 0).Pre cfg .ordered a.mgr [f (m % 512), f (512 + m / 512)] := ⟨hnv, fun _ => hocc⟩
    have hsat : M.Sat ((Fn.uniqueFind 0).run cfg [f (m % 512), f (512 + m / 512)]) a.mgr
        (fun rs s' => ∃ r, rs = [r] ∧ (2 ≤ r ∧ (s'.cells r).live = true ∧ (s'.cells r).index = 0 ∧
          ((s'.cells r).lo, (s'.cells r).hi) = kid f m)) (Thrown cfg (Use.md .ordered) a.count a.mgr) := by
      refine sat_one ?_
      have hass : mgrUniqueFind cfg 0 (f (m % 512)) (f (512 + m / 512)) a.mgr = uniqueFind cfg 0 (f (m % 512)) (f (512 + m / 512)) a.mgr := by
        unfold mgrUniqueFind
        rw [M.get_bind_apply, M.assert_bind_apply (by simpa using hnv)]
      have hspec := uniqueFind_spec hR.good hnv r1 r2 (fun _ w hw => by
        rcases hw with hw | hw <;> simp [Tree.Mem] at hw <;> omega)
      unfold M.Sat
      rw [hass]
      refine M.Sat.mono hspec ?_ (fun _ h => h)
      rintro r s' ⟨hx, hi', hrep, _⟩
      rw [mkTree, if_neg (by intro h; injection h; omega)] at hrep
      obtain ⟨h2, hv, hlive, _, h3, h4⟩ := hrep.of_node
      exact ⟨h2, hlive, hv.symm, by rw [kid, hi'.repr_inj h3 (r1.ext hx.cells), hi'.repr_inj h4 (r2.ext hx.cells)]⟩
    rcases call_cases hR (f := .uniqueFind 0) (args_two e1 e2) hpre (fun r s s' hx _ h => by
        obtain ⟨a1, a2, a3, a4, _⟩ := hx r h.2.1
        exact ⟨h.1, a1, a4.trans h.2.2.1, by rw [a2, a3]; exact h.2.2.2⟩) hsat with
      ⟨a', r, hR', hg, hhs, q1, q2, q3, q4⟩ | ⟨a', e, ht⟩
    · have hl' : ∀ p ∈ l, 2 ≤ p ∧ (a'.mgr.cells p).live = true ∧ (a'.mgr.cells p).index = 0 ∧
          ∃ k, k < m ∧ ((a'.mgr.cells p).lo, (a'.mgr.cells p).hi) = kid f k := by
        intro p hp'
        obtain ⟨h1, h2, h3, k, h4, h5⟩ := hl p hp'
        obtain ⟨b1, b2, b3, b4, _⟩ := hg.cells p h2
        exact ⟨h1, b1, b4.trans h3, k, h4, by rw [b2, b3]; exact h5⟩
      refine ⟨a', f, r :: l, hR', ?_, Nat.lt_of_lt_of_le hnv hg.nvars, ?_, by simp [hlen], ?_⟩
      · intro i hi
        obtain ⟨h1, h2⟩ := hp i hi
        have hlt : i < a.hs.length := by
          rcases Nat.lt_or_ge i a.hs.length with h | h
          · exact h
          · rw [List.getElem?_eq_none h] at h1; cases h1
        exact ⟨by rw [hhs, List.getElem?_append_left hlt]; exact h1, h2.ext hg.cells⟩
      · rw [List.nodup_cons]
        refine ⟨fun hm' => ?_, hn⟩
        obtain ⟨_, _, _, k, hk, e⟩ := hl' r hm'
        rw [q4] at e
        simp only [kid, Prod.mk.injEq] at e
        have inj : ∀ i j, i < 1100 → j < 1100 → f i = f j → i = j := by
          intro i j hi hj he
          have := (hp i hi).2
          rw [he] at this
          have := this.fn (hp j hj).2
          injection this with h1 _ _
          omega
        have := inj _ _ (by omega) (by omega) e.1
        have := inj _ _ (by omega) (by omega) e.2
        omega
      · intro p hp'
        rcases List.mem_cons.1 hp' with rfl | hp'
        · exact ⟨q1, q2, q3, m, by omega, q4⟩
        · obtain ⟨h1, h2, h3, k, h4, h5⟩ := hl' p hp'
          exact ⟨h1, h2, h3, k, by omega, h5⟩
    · exact (hT a (.call (.uniqueFind 0) [m % 512, 512 + m / 512]) a' hR (Or.inr ⟨_, rfl⟩) (show Legal cfg .ordered a (.call _ _) from fun ps e' => by rw [args_two e1 e2] at e'; cases e'; exact hpre) e ht).elim

/-- The exception does occur, whatever the addresses and hash keys. -/
theorem capacity_reached (cfg : Cfg) : Throws cfg .ordered := by
  refine Classical.byContradiction fun hT => ?_
  obtain ⟨a, f, l, hR, _, hnv, hn, hlen, hl⟩ := build_nodes (cfg := cfg) (fun a op a' h1 _ h2 h3 h4 => hT ⟨a, op, a', h1, h2, h3, h4⟩) 262146 (Nat.le_refl _)
  have := table_bound hR hnv hn (fun p hp => ⟨(hl p hp).1, (hl p hp).2.1, (hl p hp).2.2.1⟩)
  omega
end

/-! ## C12 -/

/-- What is true of C12: an exception is only thrown when some variable has more than 2^18 nodes (all functions; here stated for `unique_find`,
for the other functions it is part of `Returns`), and it changes no existing BDD. -/
theorem C12_exception_partial {cfg : Cfg} {u : Use} {a : Api} (hR : Reachable cfg u a) {v l h : Nat} (hv : v < a.mgr.nvars)
    (hl : a.Holds l) (hh : a.Holds h) (ho : u = .ordered → ∀ w, Occurs a.mgr l w ∨ Occurs a.mgr h w → v < w) {s' : Mgr}
    (e : mgrUniqueFind cfg v l h a.mgr = .throw s') : TableFull s' ∧ ∀ p, (a.mgr.cells p).live = true → (s'.cells p).live = true ∧
      (s'.cells p).index = (a.mgr.cells p).index ∧ (s'.cells p).lo = (a.mgr.cells p).lo ∧ (s'.cells p).hi = (a.mgr.cells p).hi := by
  obtain ⟨tl, rl⟩ := hR.good.any hl
  obtain ⟨th, rh⟩ := hR.good.any hh
  have hass : mgrUniqueFind cfg v l h a.mgr = uniqueFind cfg v l h a.mgr := by
    unfold mgrUniqueFind
    rw [M.get_bind_apply, M.assert_bind_apply (by simpa using hv)]
  have hspec := uniqueFind_spec hR.good hv rl rh (fun hm w hw => ho (Use.ordered_iff.1 hm) w (by
      rcases hw with hw | hw
      · exact Or.inl ((occurs_iff rl w).2 hw)
      · exact Or.inr ((occurs_iff rh w).2 hw)))
  unfold Spec M.Sat at hspec
  rw [← hass, e] at hspec
  refine ⟨hspec.full, fun p hp => ?_⟩
  obtain ⟨h1, h2, h3, h4, _⟩ := hspec.1.cells p hp
  exact ⟨h1, h4, h2, h3⟩

/-- Environment in which every hash key is 2^19. -/
def capEnv (nd : Bool) : Cfg where
  ndebug := nd
  addr p := 32 * (p + 3)
  addr_inj := by intro p q h; omega
  addr_big := by intro p; omega
  rng _ := 524288
  rtl := false
  sinkHash _ := 524288
  sinkMark _ := false

/-- The full C12 is false: some history of legal calls throws, and afterwards a call as simple as `projection(v)` for an existing variable is
undefined behaviour (it reads past the end of the hash table), in debug and release builds. -/
theorem C12_refuted : ∀ nd : Bool, ∃ a op a' v, Reachable (capEnv nd) .ordered a ∧ Legal (capEnv nd) .ordered a op ∧
    step (capEnv nd) op a = .throw a' ∧ v < a'.mgr.nvars ∧ projection (capEnv nd) v a'.mgr = .ub := by
  intro nd
  obtain ⟨a, op, a', hR, hl, e, hg, v, hv, hmask, hcap, _⟩ := capacity_reached (capEnv nd)
  refine ⟨a, op, a', v, hR, hl, e, hv, ?_⟩
  obtain ⟨k0, k1⟩ := sink_keys hR
  obtain ⟨_, _, _, _, g0⟩ := hg.cells 0 hR.good.live0
  obtain ⟨_, _, _, _, g1⟩ := hg.cells 1 hR.good.live1
  have h0 : (a'.mgr.cells 0).hashKey = 524288 := g0.trans k0
  have h1 : (a'.mgr.cells 1).hashKey = 524288 := g1.trans k1
  have hlook : tableLookup a'.mgr.cells (a'.mgr.tabs v) 0 1 = .error .ub := by
    unfold tableLookup
    have hh : hashCode a'.mgr.cells 0 1 = 1572864 := by unfold hashCode; rw [h0, h1]; decide
    rw [hh, hmask]
    unfold probeKey
    simp only
    rw [if_pos]
    rw [hcap, hmask]; decide
  have hens : ensureVar (capEnv nd) v a'.mgr = .ok () a'.mgr := by
    unfold ensureVar
    rw [M.get_bind_apply, show v + 1 - a'.mgr.nvars = 0 by omega]
    rfl
  unfold projection
  rw [M.bind_ok hens]
  unfold uniqueFind
  rw [M.get_bind_apply, if_neg (by omega)]
  simp only [uniqueFindAux]
  rw [if_neg (by decide), M.get_bind_apply]
  rw [M.assert_bind_apply (by rw [hmask]; decide)]
  show M.bind (M.lift (tableLookup a'.mgr.cells (a'.mgr.tabs v) 0 1)) _ a'.mgr = _
  rw [hlook]
  rfl

end LBDD
