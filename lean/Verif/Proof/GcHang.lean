import Verif.Proof.GcFuel
import Verif.Spec.Gc
/-! When the inner loop of `remove_dead_nodes` never ends: after one removal, exactly which tables make it fill the table up. -/
namespace LBDD

/-- Every stored node is findable from its home if slot `k` is taken for occupied. -/
def Gapped (n : Nat) (sl : Nat → Option Nat) (hsh : Nat → Nat) (k : Nat) : Prop :=
  ∀ i p, i < n → sl i = some p → ∃ d, d < n ∧ (hsh p + d) % n = i ∧ ∀ e, e < d → (hsh p + e) % n ≠ k → sl ((hsh p + e) % n) ≠ none

theorem upd_some_ne {sl : Nat → Option Nat} {x p i : Nat} (h : sl i ≠ none) : upd sl x (some p) i ≠ none := by
  by_cases e : i = x
  · subst e; rw [upd_same]; simp
  · rw [upd_ne _ _ e]; exact h

/-- In a table with at most the gap `k`, from a slot `j` that is occupied and, as long as there is the gap, followed by an occupied slot, the
inner loop keeps meeting nodes: each one is stored once more, until the table is full. -/
theorem rdInner_stuck {v kk k : Nat} : ∀ (fuel j : Nat) (s : Mgr), (s.tabs v).mask + 1 = 2 ^ kk → (s.tabs v).mask + 1 ≤ (s.tabs v).cap →
    k < (s.tabs v).mask + 1 →
    (∀ i p, i < (s.tabs v).mask + 1 → (s.tabs v).slots i = some p → (s.cells p).live = true ∧ 0 < (s.cells p).xref) →
    Gapped ((s.tabs v).mask + 1) (s.tabs v).slots (fun p => hashCode s.cells (s.cells p).lo (s.cells p).hi) k →
    (s.tabs v).slots (j % ((s.tabs v).mask + 1)) ≠ none →
    ((s.tabs v).slots ((j + 1) % ((s.tabs v).mask + 1)) ≠ none ∨ (s.tabs v).slots k ≠ none) →
    rdInner v fuel j s = .hang := by
  intro fuel
  induction fuel with
  | zero => intros; rfl
  | succ fuel ih =>
    intro j s hp hc hk hl hg hj hj1
    unfold rdInner
    have hjlt : j % ((s.tabs v).mask + 1) < (s.tabs v).mask + 1 := Nat.mod_lt _ (by omega)
    rw [M.get_bind_apply, and_mask _ hp, if_neg (by omega)]
    cases hs : (s.tabs v).slots (j % ((s.tabs v).mask + 1)) with
    | none => exact absurd hs hj
    | some p =>
      obtain ⟨l1, l2⟩ := hl _ _ hjlt hs
      obtain ⟨d, d1, d2, d3⟩ := hg _ _ hjlt hs
      dsimp only at d2 d3 ⊢
      rw [if_neg (by omega), if_neg (by rw [l1]; simp)]
      generalize hh : hashCode s.cells (s.cells p).lo (s.cells p).hi = h at d2 d3
      by_cases hfree : ∃ d, d < (s.tabs v).mask + 1 ∧ (s.tabs v).slots ((h + d) % ((s.tabs v).mask + 1)) = none
      · obtain ⟨d', f1, f2, f3, f4⟩ := probeFree_ok hp hc _ h hfree
        unfold nextFreeSlot
        rw [M.bind_ok (show M.lift (probeFree (s.tabs v) ((s.tabs v).mask + 1) h) s = .ok _ s by rw [f2]; rfl)]
        generalize hx : (h + d') % ((s.tabs v).mask + 1) = x at f3
        have hxlt : x < (s.tabs v).mask + 1 := by rw [← hx]; exact Nat.mod_lt _ (by omega)
        let s2 : Mgr := { s with tabs := upd s.tabs v { s.tabs v with slots := upd (s.tabs v).slots x (some p) } }
        have e2 : (s2.tabs v).slots = upd (s.tabs v).slots x (some p) := by simp [s2]
        have e3 : (s2.tabs v).mask = (s.tabs v).mask := by simp [s2]
        have e4 : (s2.tabs v).cap = (s.tabs v).cap := by simp [s2]
        show rdInner v fuel (j + 1) s2 = .hang
        have next : ∀ m, (h + (d + m)) % ((s.tabs v).mask + 1) = (j + m) % ((s.tabs v).mask + 1) := by
          intro m
          rw [← Nat.add_assoc, ← Nat.mod_add_mod, d2, Nat.mod_add_mod]
        -- slot `j` is not free
        have hd : d' ≠ d := by rintro rfl; rw [← hx, d2, hs] at f3; cases f3
        refine ih (j + 1) s2 (by rw [e3]; exact hp) (by rw [e3, e4]; exact hc) (by rw [e3]; exact hk) ?_ ?_ ?_ ?_
        · intro i q hi hq
          rw [e3] at hi; rw [e2] at hq
          by_cases ei : i = x
          · subst ei; rw [upd_same] at hq; cases hq; exact ⟨l1, l2⟩
          · rw [upd_ne _ _ ei] at hq; exact hl i q hi hq
        · intro i q hi hq
          rw [e3] at hi ⊢; rw [e2] at hq ⊢
          show ∃ d, d < _ ∧ (hashCode s.cells (s.cells q).lo (s.cells q).hi + d) % _ = i ∧ _
          by_cases ei : i = x
          · subst ei; rw [upd_same] at hq; cases hq
            refine ⟨d', f1, by rw [hh]; exact hx, fun e he _ => ?_⟩
            dsimp only
            rw [show hashCode s2.cells (s2.cells p).lo (s2.cells p).hi = h from hh]
            exact upd_some_ne (f4 e he)
          · rw [upd_ne _ _ ei] at hq
            obtain ⟨c, c1, c2, c3⟩ := hg i q hi hq
            exact ⟨c, c1, c2, fun e he hek => upd_some_ne (c3 e he hek)⟩
        · rw [e2, e3]
          by_cases ej1 : (s.tabs v).slots ((j + 1) % ((s.tabs v).mask + 1)) = none
          · rcases hj1 with hj1 | hk'
            · exact absurd ej1 hj1
            · -- no gap: the first free slot from the home of `p` is slot `j + 1`
              have ge : d + 1 ≤ d' := by
                refine Classical.byContradiction fun hlt => ?_
                refine d3 d' (by omega) (fun e => ?_) (by rw [hx]; exact f3)
                rw [hx] at e; subst e; exact hk' f3
              have : d' = d + 1 := by
                refine Classical.byContradiction fun hne => ?_
                exact f4 (d + 1) (by omega) (by rw [next 1]; exact ej1)
              rw [← next 1, ← this, hx, upd_same]; simp
          · exact upd_some_ne ej1
        · rw [e2, e3]
          by_cases hxk : x = k
          · right; rw [hxk, upd_same]; simp
          by_cases hk' : (s.tabs v).slots k = none
          · left
            have hj1 : (s.tabs v).slots ((j + 1) % ((s.tabs v).mask + 1)) ≠ none := by
              rcases hj1 with h | h
              · exact h
              · exact absurd hk' h
            have ge : d + 1 ≤ d' := by
              refine Classical.byContradiction fun hlt => ?_
              refine d3 d' (by omega) (by rw [hx]; exact hxk) (by rw [hx]; exact f3)
            have ge2 : d' ≠ d + 1 := by
              rintro rfl
              rw [next 1] at hx
              rw [hx] at hj1
              exact hj1 f3
            by_cases ej2 : (s.tabs v).slots ((j + 2) % ((s.tabs v).mask + 1)) = none
            · have : d' = d + 2 := by
                refine Classical.byContradiction fun hne => ?_
                exact f4 (d + 2) (by omega) (by rw [next 2]; exact ej2)
              rw [show j + 1 + 1 = j + 2 from rfl, ← next 2, ← this, hx, upd_same]; simp
            · exact upd_some_ne ej2
          · right; exact upd_some_ne hk'
      · have hfull : ∀ l m, probeFree (s.tabs v) m l = .error .hang := by
          intro l m
          induction m generalizing l with
          | zero => rfl
          | succ m ihm =>
            have hlt : l % ((s.tabs v).mask + 1) < (s.tabs v).mask + 1 := Nat.mod_lt _ (by omega)
            simp only [probeFree]
            rw [and_mask _ hp, if_neg (by omega)]
            cases e : (s.tabs v).slots (l % ((s.tabs v).mask + 1)) with
            | some q => exact ihm _
            | none =>
              exfalso
              obtain ⟨c, c1, c2⟩ := exists_dist (n := (s.tabs v).mask + 1) h _ hlt
              exact hfree ⟨c, c1, by rw [c2]; exact e⟩
        unfold nextFreeSlot
        rw [hfull]
        rfl

theorem M.bind_hang {σ α β : Type} {m : M σ α} {f : α → M σ β} {s : σ} (h : m s = .hang) : (m >>= f) s = .hang := by
  show M.bind m f s = _
  unfold M.bind
  rw [h]

/-- The outer loop passes slots without dead nodes. -/
theorem rdOuter_skip {cfg : Cfg} {v : Nat} {s : Mgr} (hc : (s.tabs v).mask + 1 ≤ (s.tabs v).cap) : ∀ (m i n : Nat), i + m ≤ (s.tabs v).mask + 1 →
    (∀ j p, i ≤ j → j < i + m → (s.tabs v).slots j = some p → 0 < (s.cells p).xref) →
    rdOuter cfg v (n + m) i s = rdOuter cfg v n (i + m) s := by
  intro m
  induction m with
  | zero => intros; rfl
  | succ m ih =>
    intro i n hm h
    have step : rdOuter cfg v (n + m + 1) i s = rdOuter cfg v (n + m) (i + 1) s := by
      conv => lhs; unfold rdOuter
      rw [M.get_bind_apply, if_neg (by omega), if_neg (by omega)]
      cases e : (s.tabs v).slots i with
      | none => rfl
      | some p =>
        dsimp only
        have := h i p (by omega) (by omega) e
        rw [if_neg (by omega)]
    rw [show n + (m + 1) = n + m + 1 from rfl, step, ih (i + 1) n (by omega) (fun j p h1 h2 => h j p (by omega) (by omega))]
    rw [show i + 1 + m = i + (m + 1) by omega]

theorem mod_ne {n i a b : Nat} (h : a < b) (hn : b < a + n) : (i + a) % n ≠ (i + b) % n := by
  intro e
  have := Nat.sub_mod_eq_zero_of_mod_eq e.symm
  rw [show i + b - (i + a) = b - a by omega, Nat.mod_eq_of_lt (by omega)] at this
  omega

/-- Two distances below `n` to the same slot are equal. -/
theorem dist_inj {n i a b : Nat} (ha : a < n) (hb : b < n) (h : (i + a) % n = (i + b) % n) : a = b := by
  rcases Nat.lt_trichotomy a b with hlt | he | hlt
  · exact absurd h (mod_ne hlt (by omega))
  · exact he
  · exact absurd h.symm (mod_ne hlt (by omega))

section
variable {cfg : Cfg} {md : Md} {refs : Nat → Nat}

/-- The state in which the inner loop starts, after the first dead node of a table with one dead node was freed. -/
structure Freed (refs : Nat → Nat) (s : Mgr) (v k p : Nat) (s1 : Mgr) : Prop where
  mask : (s1.tabs v).mask = (s.tabs v).mask
  cap : (s1.tabs v).cap = (s.tabs v).cap
  free : (s1.tabs v).free = (s.tabs v).free + 1
  slots : (s1.tabs v).slots = upd (s.tabs v).slots k none
  other : ∀ w, w ≠ v → s1.tabs w = s.tabs w
  run : GcRun refs s s1
  live : ∀ q, (s1.cells q).live = true ↔ (s.cells q).live = true ∧ q ≠ p

theorem dropState_freed {s : Mgr} {v k p : Nat} (h : HeapOk refs s) (hl : (s.cells p).live = true) (hx : (s.cells p).xref ≤ 0) :
    Freed refs s v k p (dropState s v k p) := by
  have g1 := freedState_run h hl hx
  have hg : GcRun refs s (dropState s v k p) := g1.trans (.congr g1.ok rfl rfl rfl rfl)
  refine ⟨?_, ?_, ?_, ?_, ?_, hg, fun q => (freedCells_eq s.cells p q).2.2.2.2.1⟩
  · show (upd s.tabs v _ v).mask = _
    rw [upd_same]
  · show (upd s.tabs v _ v).cap = _
    rw [upd_same]
  · show (upd s.tabs v _ v).free = _
    rw [upd_same]
  · show (upd s.tabs v _ v).slots = _
    rw [upd_same]
  · intro w hw
    exact upd_ne _ _ hw

/-- `remove_dead_nodes` on a table with one dead node, up to the inner loop. -/
theorem rdOuter_single {s : Mgr} (hi : Inv cfg md refs s) {v k p : Nat} (hv : v < s.nvars) (hk : k ≤ (s.tabs v).mask)
    (hp : (s.tabs v).slots k = some p) (hx : (s.cells p).xref ≤ 0)
    (ho : ∀ i q, i ≤ (s.tabs v).mask → i ≠ k → (s.tabs v).slots i = some q → 0 < (s.cells q).xref) :
    rdOuter cfg v ((s.tabs v).mask + 2) 0 s = (do
      let j ← rdInner v (3 * ((s.tabs v).mask + 1) + 1) (k + 1)
      rdOuter cfg v ((s.tabs v).mask + 1 - k) (j + 1)) (dropState s v k p) := by
  have htab := hi.tab v hv
  have hcap := htab.cap
  have hskip := rdOuter_skip (cfg := cfg) (v := v) (s := s) hcap k 0 ((s.tabs v).mask + 1 - k + 1) (by omega)
    (fun j q _ h2 h3 => ho j q (by omega) (by omega) h3)
  rw [show (s.tabs v).mask + 1 - k + 1 + k = (s.tabs v).mask + 2 by omega, Nat.zero_add] at hskip
  rw [hskip]
  conv => lhs; unfold rdOuter
  rw [M.get_bind_apply, if_neg (by omega), if_neg (by omega), hp]
  dsimp only
  rw [if_pos hx]
  obtain ⟨p2, hl, hidx⟩ := htab.slots.sound k p (by omega) hp
  obtain ⟨hp1, hp2, _⟩ := hi.node p p2 hl
  have hnv := hi.nv
  rw [M.bind_ok (freeNode_ok hi.heapOk hl hx (by omega) hp2)]
  have e2 : storeSlot v k none (freedState s p) = .ok () { freedState s p with tabs := upd s.tabs v { s.tabs v with slots := upd (s.tabs v).slots k none } } := rfl
  rw [M.bind_ok e2]
  have e3 : incFree v { freedState s p with tabs := upd s.tabs v { s.tabs v with slots := upd (s.tabs v).slots k none } } =
      .ok () (dropState s v k p) := by
    unfold incFree M.modify dropState
    simp only [upd_same, upd_upd]
  rw [M.bind_ok e3]

theorem remove_single {s : Mgr} (hi : Inv cfg md refs s) {v k p : Nat} (hv : v < s.nvars) (hk : k ≤ (s.tabs v).mask)
    (hp : (s.tabs v).slots k = some p) (hx : (s.cells p).xref ≤ 0)
    (ho : ∀ i q, i ≤ (s.tabs v).mask → i ≠ k → (s.tabs v).slots i = some q → KeptR refs s q) :
    (Traps ((s.tabs v).mask + 1) (s.tabs v).slots (fun q => hashCode s.cells (s.cells q).lo (s.cells q).hi) k →
      removeDeadNodes cfg v s = .hang) ∧
    (¬ Traps ((s.tabs v).mask + 1) (s.tabs v).slots (fun q => hashCode s.cells (s.cells q).lo (s.cells q).hi) k →
      ∃ s', rdOuter cfg v ((s.tabs v).mask + 2) 0 s = .ok () s' ∧ s'.cells = (dropState s v k p).cells ∧ s'.nvars = s.nvars ∧ s'.pool = (dropState s v k p).pool ∧
        (∀ w, w ≠ v → s'.tabs w = s.tabs w) ∧ (s'.tabs v).mask = (s.tabs v).mask ∧ (s'.tabs v).cap = (s.tabs v).cap ∧ (s'.tabs v).free = (s.tabs v).free + 1) := by
  have htab := hi.tab v hv
  have hcap := htab.cap
  obtain ⟨kk, hk6, _, hpow⟩ := htab.pow
  have h64 : 64 ≤ (s.tabs v).mask + 1 := by
    rw [hpow]
    exact Nat.pow_le_pow_right (n := 2) (by omega) hk6
  obtain ⟨p2, hl, hidx⟩ := htab.slots.sound k p (by omega) hp
  have hh := hi.heapOk
  have livek : ∀ q, KeptR refs s q → (s.cells q).live = true → 0 < (s.cells q).xref := fun q h1 h2 => h1.pos hh h2
  have hstart := rdOuter_single hi hv hk hp hx (fun i q h1 h2 h3 => livek q (ho i q h1 h2 h3) (htab.slots.sound i q (by omega) h3).2.1)
  have fr := dropState_freed (v := v) (k := k) hh hl hx
  generalize dropState s v k p = s1 at hstart fr ⊢
  have hsame := fr.run.frees.same
  have hhash : ∀ q, hashCode s1.cells (s1.cells q).lo (s1.cells q).hi = hashCode s.cells (s.cells q).lo (s.cells q).hi := by
    intro q
    unfold hashCode
    rw [(hsame q).1, (hsame q).2.1, (hsame _).2.2.2, (hsame _).2.2.2]
  have hN : (k + 1) % ((s.tabs v).mask + 1) ≠ k % ((s.tabs v).mask + 1) := fun e => mod_ne (i := k) (a := 0) (b := 1) (by omega) (by omega) e.symm
  have hN2 : (k + 2) % ((s.tabs v).mask + 1) ≠ k % ((s.tabs v).mask + 1) := fun e => mod_ne (i := k) (a := 0) (b := 2) (by omega) (by omega) e.symm
  have hkm : k % ((s.tabs v).mask + 1) = k := Nat.mod_eq_of_lt (by omega)
  rw [hkm] at hN hN2
  have hstored : ∀ i q, i < (s1.tabs v).mask + 1 → (s1.tabs v).slots i = some q → (s1.cells q).live = true ∧ 0 < (s1.cells q).xref := by
    intro i q hi' hq
    rw [fr.mask] at hi'
    rw [fr.slots] at hq
    have ei : i ≠ k := by rintro rfl; rw [upd_same] at hq; cases hq
    rw [upd_ne _ _ ei] at hq
    have hql := (htab.slots.sound i q hi' hq).2.1
    have hqk := ho i q (by omega) ei hq
    have hne : q ≠ p := by rintro rfl; exact ei (htab.slots.inj i k q hi' (by omega) hq hp)
    have := (fr.live q).2 ⟨hql, hne⟩
    exact ⟨this, (hqk.mono fr.run).pos fr.run.ok this⟩
  have hgap : ∀ i q, i < (s.tabs v).mask + 1 → (s1.tabs v).slots i = some q →
      (s.tabs v).slots i = some q ∧ i ≠ k ∧ Reach ((s.tabs v).mask + 1) (s.tabs v).slots (hashCode s.cells (s.cells q).lo (s.cells q).hi) i := by
    intro i q hi' hq
    rw [fr.slots] at hq
    have ei : i ≠ k := by rintro rfl; rw [upd_same] at hq; cases hq
    rw [upd_ne _ _ ei] at hq
    exact ⟨hq, ei, htab.slots.reach i q hi' hq⟩
  constructor
  · rintro ⟨q, hq, hcond⟩
    have stuck : rdInner v (3 * ((s.tabs v).mask + 1) + 1) (k + 1) s1 = .hang := by
      have hk1lt : (k + 1) % ((s.tabs v).mask + 1) < (s.tabs v).mask + 1 := Nat.mod_lt _ (by omega)
      have occ1 : (s1.tabs v).slots ((k + 1) % ((s1.tabs v).mask + 1)) ≠ none := by
        rw [fr.mask, fr.slots, upd_ne _ _ hN, hq]; simp
      by_cases h2 : (s.tabs v).slots ((k + 2) % ((s.tabs v).mask + 1)) = none
      · have hhome := hcond.resolve_left (fun h => h h2)
        refine rdInner_stuck (kk := kk) (k := (k + 1) % ((s.tabs v).mask + 1)) _ _ _ (by rw [fr.mask]; exact hpow) (by rw [fr.mask, fr.cap]; exact hcap)
          (by rw [fr.mask]; exact hk1lt) hstored ?_ occ1 (Or.inr (by rw [fr.mask] at occ1; exact occ1))
        intro i r hir hr
        rw [fr.mask] at hir ⊢
        obtain ⟨g1, g2, d, d1, d2, d3⟩ := hgap i r hir hr
        dsimp only
        rw [hhash]
        refine ⟨d, d1, d2, fun c hc _ => ?_⟩
        rw [fr.slots]
        generalize hgh : hashCode s.cells (s.cells r).lo (s.cells r).hi = h at d2 d3 ⊢
        by_cases ek : (h + c) % ((s.tabs v).mask + 1) = k
        · exfalso
          have nx : ∀ m, (h + (c + m)) % ((s.tabs v).mask + 1) = (k + m) % ((s.tabs v).mask + 1) := by
            intro m
            rw [← ek, Nat.mod_add_mod, Nat.add_assoc]
          by_cases e1 : c + 1 = d
          · -- `r` is the node after the removed one; it is at home there
            have : i = (k + 1) % ((s.tabs v).mask + 1) := by rw [← d2, ← e1, nx 1]
            subst this
            rw [hq] at g1
            cases g1
            dsimp only at hhome
            rw [hgh, ← d2] at hhome
            have := dist_inj (i := h) (a := 0) (by omega) d1 hhome
            omega
          · by_cases e2 : c + 2 = d
            · rw [← d2, ← e2, nx 2, h2] at g1; cases g1
            · exact d3 (c + 2) (by omega) (by rw [nx 2]; exact h2)
        · rw [upd_ne _ _ ek]; exact d3 c hc
      · refine rdInner_stuck (kk := kk) (k := k) _ _ _ (by rw [fr.mask]; exact hpow) (by rw [fr.mask, fr.cap]; exact hcap)
          (by rw [fr.mask]; omega) hstored ?_ occ1 (Or.inl (by rw [fr.mask, fr.slots, upd_ne _ _ hN2]; exact h2))
        intro i r hir hr
        rw [fr.mask] at hir ⊢
        obtain ⟨g1, g2, d, d1, d2, d3⟩ := hgap i r hir hr
        dsimp only
        rw [hhash]
        refine ⟨d, d1, d2, fun c hc hck => ?_⟩
        rw [fr.slots, upd_ne _ _ hck]
        exact d3 c hc
    unfold removeDeadNodes
    rw [M.get_bind_apply]
    exact M.bind_hang (hstart.trans (M.bind_hang stuck))
  · intro hnt
    have hk1lt : (k + 1) % ((s.tabs v).mask + 1) < (s.tabs v).mask + 1 := Nat.mod_lt _ (by omega)
    have hk2lt : (k + 2) % ((s.tabs v).mask + 1) < (s.tabs v).mask + 1 := Nat.mod_lt _ (by omega)
    have hm : (s.tabs v).mask = (s1.tabs v).mask := fr.mask.symm
    cases hq : (s.tabs v).slots ((k + 1) % ((s.tabs v).mask + 1)) with
    | none =>
      have stop : rdInner v (3 * ((s.tabs v).mask + 1) + 1) (k + 1) s1 = .ok (k + 1) s1 := by
        refine rdInner_stop ?_ ?_
        · rw [fr.mask, fr.cap, and_mask _ hpow]; omega
        · rw [fr.mask, and_mask _ hpow, fr.slots, upd_ne _ _ hN, hq]
      rw [hstart, M.bind_ok stop]
      refine ⟨s1, rdOuter_none (by rw [fr.mask, fr.cap]; exact hcap) (fun i q h1 h2 => (hstored i q (by omega) h2).2) _ _ (by omega) (by omega), rfl,
        fr.run.frees.nvars, rfl, fr.other, fr.mask, fr.cap, fr.free⟩
    | some q =>
      have h2 : (s.tabs v).slots ((k + 2) % ((s.tabs v).mask + 1)) = none :=
        Classical.byContradiction fun h => hnt ⟨q, hq, Or.inl h⟩
      have hhome : hashCode s.cells (s.cells q).lo (s.cells q).hi % ((s.tabs v).mask + 1) ≠ (k + 1) % ((s.tabs v).mask + 1) :=
        fun h => hnt ⟨q, hq, Or.inr h⟩
      have occ1 : (s1.tabs v).slots ((k + 1) % ((s.tabs v).mask + 1)) = some q := by
        rw [fr.slots, upd_ne _ _ hN, hq]
      obtain ⟨q1, q2⟩ := hstored _ q (by rw [fr.mask]; exact hk1lt) occ1
      obtain ⟨g1, g2, d, d1, d2, d3⟩ := hgap _ q hk1lt occ1
      let s2 : Mgr := { s1 with tabs := upd s1.tabs v { s1.tabs v with slots := upd (s1.tabs v).slots k (some q) } }
      have m2 : (s2.tabs v).mask = (s1.tabs v).mask := by simp [s2]
      have c2 : (s2.tabs v).cap = (s1.tabs v).cap := by simp [s2]
      have f2 : (s2.tabs v).free = (s1.tabs v).free := by simp [s2]
      have l2 : (s2.tabs v).slots = upd (s1.tabs v).slots k (some q) := by simp [s2]
      have hfree : nextFreeSlot (s1.tabs v) (hashCode s.cells (s.cells q).lo (s.cells q).hi) = .ok k := by
        generalize hashCode s.cells (s.cells q).lo (s.cells q).hi = h at d2 d3 hhome
        have hd0 : d ≠ 0 := by rintro rfl; exact hhome (by simpa using d2)
        have hdk : (h + (d - 1)) % ((s.tabs v).mask + 1) = k := by
          have h1 : (h + (d - 1) + 1) % ((s.tabs v).mask + 1) = (k + 1) % ((s.tabs v).mask + 1) := by
            rw [← d2]; congr 1; omega
          have h3 := Nat.mod_add_mod (h + (d - 1)) ((s.tabs v).mask + 1) 1
          rw [h1] at h3
          have h4 : (h + (d - 1)) % ((s.tabs v).mask + 1) < (s.tabs v).mask + 1 := Nat.mod_lt _ (by omega)
          refine Classical.byContradiction fun hne => ?_
          generalize (h + (d - 1)) % ((s.tabs v).mask + 1) = x at *
          rcases Nat.lt_or_gt_of_ne hne with hlt | hlt
          · have := mod_ne (n := (s.tabs v).mask + 1) (i := 1) (a := x) (b := k) hlt (by omega)
            rw [Nat.add_comm 1 x, Nat.add_comm 1 k] at this
            exact this h3
          · have := mod_ne (n := (s.tabs v).mask + 1) (i := 1) (a := k) (b := x) hlt (by omega)
            rw [Nat.add_comm 1 x, Nat.add_comm 1 k] at this
            exact this h3.symm
        have hpf := probeFree_ok (t := s1.tabs v) (k := kk) (by rw [fr.mask]; exact hpow) (by rw [fr.mask, fr.cap]; exact hcap) ((s1.tabs v).mask + 1) h
          ⟨d - 1, by rw [fr.mask]; omega, by rw [fr.mask, hdk, fr.slots, upd_same]⟩
        obtain ⟨d', f1, f2, f3, f4⟩ := hpf
        unfold nextFreeSlot
        rw [f2]
        rw [fr.mask] at f1 f3 f4 ⊢
        have : d' = d - 1 := by
          rcases Nat.lt_trichotomy d' (d - 1) with hlt | he | hlt
          · exfalso
            rw [fr.slots, upd_ne _ _ (fun e => by have := dist_inj f1 (show d - 1 < _ by omega) (e.trans hdk.symm); omega)] at f3
            exact d3 d' (by omega) f3
          · exact he
          · exact absurd (by rw [hdk, fr.slots, upd_same]) (f4 (d - 1) hlt)
        rw [this, hdk]
      have inner : rdInner v (3 * ((s.tabs v).mask + 1) + 1) (k + 1) s1 = .ok (k + 2) s2 := by
        obtain ⟨F, hF⟩ : ∃ F, 3 * ((s.tabs v).mask + 1) = F + 1 := ⟨3 * ((s.tabs v).mask + 1) - 1, by omega⟩
        rw [hF]
        conv => lhs; unfold rdInner
        rw [M.get_bind_apply, fr.mask, fr.cap, and_mask _ hpow, if_neg (by omega), occ1]
        dsimp only
        rw [if_neg (by omega), if_neg (by rw [q1]; simp), hhash]
        rw [M.bind_ok (show M.lift (nextFreeSlot (s1.tabs v) (hashCode s.cells (s.cells q).lo (s.cells q).hi)) s1 = .ok k s1 by rw [hfree]; rfl)]
        show rdInner v (F + 1) (k + 2) s2 = _
        refine rdInner_stop ?_ ?_
        · rw [m2, c2, fr.mask, fr.cap, and_mask _ hpow]; omega
        · rw [m2, fr.mask, and_mask _ hpow, l2, upd_ne _ _ hN2, fr.slots, upd_ne _ _ hN2, h2]
      rw [hstart, M.bind_ok inner]
      refine ⟨s2, rdOuter_none (by rw [m2, c2, fr.mask, fr.cap]; exact hcap) ?_ _ _ (by rw [m2]; omega) (by omega), rfl,
        fr.run.frees.nvars, rfl, ?_, m2.trans fr.mask, c2.trans fr.cap, f2.trans fr.free⟩
      · intro i r h1 h3
        rw [m2] at h1
        rw [l2] at h3
        show 0 < (s1.cells r).xref
        by_cases ei : i = k
        · subst ei; rw [upd_same] at h3; cases h3; exact q2
        · rw [upd_ne _ _ ei] at h3; exact (hstored i r (by omega) h3).2
      · intro w hw
        show upd s1.tabs v _ w = _
        rw [upd_ne _ _ hw]; exact fr.other w hw
end
end LBDD
