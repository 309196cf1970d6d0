import Verif.Props.Gc
import Verif.Props.Capacity
/-!
# Shrinking a sparse table (C35)

The code that shrinks a table after a collection never works: the new size is computed as 1 and there is no page pool for it.
-/
namespace LBDD
section
variable {cfg : Cfg} {u : Use} {a a' : Api}

/-- The program crashes: a failed assert in debug builds, undefined behaviour in release builds. -/
def Crash {σ α : Type} (cfg : Cfg) (o : Res σ α) : Prop :=
  match o with
  | .ub => cfg.ndebug = true
  | .assertFail => cfg.ndebug = false
  | _ => False

/-- Every attempt to shrink a table crashes. -/
theorem C35_shrink_crashes {s : Mgr} {v : Nat} (hm : 127 ≤ (s.tabs v).mask) (hm2 : (s.tabs v).mask < 2 ^ 20)
    (hodd : (s.tabs v).mask % 2 = 1) (hf : (s.tabs v).free ≤ (s.tabs v).mask + 1)
    (hs : 8 * ((s.tabs v).mask + 1 - (s.tabs v).free) ≤ (s.tabs v).mask + 1) : Crash cfg (shrinkTable cfg v s) := by
  unfold shrinkTable
  rw [M.get_bind_apply]
  have hsp : (decide (63 < (s.tabs v).mask) && sparse (s.tabs v)) = true := by
    simp only [Bool.and_eq_true, decide_eq_true_eq, sparse]
    refine ⟨by omega, ?_⟩
    rw [sub64_eq hf (by omega)]
    exact hs
  rw [if_pos hsp]
  generalize hn0 : ((s.tabs v).mask + 1) / 2 - 1 = n0
  have h63 : 63 ≤ n0 := by omega
  have hfree : n0 < (s.tabs v).free := by omega
  have hsub : sub64 n0 (s.tabs v).free = 2 ^ 64 - ((s.tabs v).free - n0) := by
    unfold sub64
    rw [Nat.mod_eq_of_lt (show (s.tabs v).free < 2 ^ 64 by omega), Nat.mod_eq_of_lt (by omega)]
    omega
  have hmask : shrinkMask (s.tabs v) n0 n0 = 1 := by
    obtain ⟨n, rfl⟩ : ∃ n, n0 = n + 1 + 1 := ⟨n0 - 2, by omega⟩
    rw [shrinkMask, if_pos ⟨h63, by rw [hsub]; omega⟩, hn0, Nat.div_self (by omega), shrinkMask]
    rw [if_neg (by omega)]
  rw [hmask]
  have : newPage cfg 1 s = if cfg.ndebug then .ub else .assertFail := by
    unfold newPage
    have : pageCapFor 1 = none := by decide
    rw [this]
    show (if (1 : Nat) = 1048575 then M.throw else (do M.assert cfg.ndebug false; M.ub) : M Mgr Nat) s = _
    rw [if_neg (by omega)]
    cases cfg.ndebug <;> rfl
  show Crash cfg (M.bind (newPage cfg 1) _ s)
  unfold M.bind
  rw [this]
  cases hnd : cfg.ndebug
  · exact hnd
  · exact hnd

/-! ## A collection in which all nodes of a grown variable are garbage -/

/-- All nodes stored in the table of `v` are dead. -/
structure AllDead (refs : Nat → Nat) (v : Nat) (s : Mgr) : Prop where
  heap : HeapOk refs s
  dead : ∀ i p, i ≤ (s.tabs v).mask → (s.tabs v).slots i = some p → (s.cells p).live = true ∧ (s.cells p).xref ≤ 0 ∧
    (s.cells p).index < topsinkIndex ∧ (s.cells p).lo ≠ (s.cells p).hi
  inj : ∀ i j p, i ≤ (s.tabs v).mask → j ≤ (s.tabs v).mask → (s.tabs v).slots i = some p → (s.tabs v).slots j = some p → i = j
  free : (s.tabs v).free = countFree (s.tabs v).slots ((s.tabs v).mask + 1)
  cap : (s.tabs v).mask + 1 ≤ (s.tabs v).cap
  pow : ∃ k, 6 ≤ k ∧ (s.tabs v).mask + 1 = 2 ^ k

/-- The state after a slot was emptied. -/
def clearSlot (s : Mgr) (v k : Nat) : Mgr :=
  { s with tabs := upd s.tabs v { s.tabs v with slots := upd (s.tabs v).slots k none, free := (s.tabs v).free + 1 } }

theorem clearSlot_eq (v k : Nat) (s : Mgr) {α : Type} (f : M Mgr α) :
    (do storeSlot v k none; incFree v; f : M Mgr α) s = f (clearSlot s v k) := by
  show f _ = f _
  congr 1
  unfold clearSlot
  simp only [upd_same, upd_upd]

theorem AllDead.clear {refs : Nat → Nat} {v : Nat} {s : Mgr} (h : AllDead refs v s) {k p : Nat} (hk : k ≤ (s.tabs v).mask)
    (hp : (s.tabs v).slots k = some p) : AllDead refs v (clearSlot s v k) := by
  have ht : (clearSlot s v k).tabs v = { s.tabs v with slots := upd (s.tabs v).slots k none, free := (s.tabs v).free + 1 } := by
    simp [clearSlot]
  have hsl : ∀ i q, (upd (s.tabs v).slots k none) i = some q → (s.tabs v).slots i = some q := by
    intro i q e
    by_cases hi : i = k
    · subst hi; simp at e
    · rw [upd_ne _ _ hi] at e; exact e
  constructor
  · exact (GcRun.congr (s' := clearSlot s v k) h.heap rfl rfl rfl rfl).ok
  · rw [ht]; intro i q hi e; exact h.dead i q hi (hsl i q e)
  · rw [ht]; intro i j q hi hj e1 e2; exact h.inj i j q hi hj (hsl _ _ e1) (hsl _ _ e2)
  · rw [ht]
    show (s.tabs v).free + 1 = countFree (upd (s.tabs v).slots k none) ((s.tabs v).mask + 1)
    rw [countFree_remove (by omega) hp, h.free]
  · rw [ht]; exact h.cap
  · rw [ht]; exact h.pow

theorem rdInner_dead {refs : Nat → Nat} {v : Nat} : ∀ (n j : Nat) (s : Mgr), AllDead refs v s → 1 ≤ j → j ≤ (s.tabs v).mask + 1 →
    (s.tabs v).mask + 3 ≤ n + j → (∀ i, i < j → (s.tabs v).slots i = none) →
    ∃ j' s', rdInner v n j s = .ok j' s' ∧ AllDead refs v s' ∧ (s'.tabs v).mask = (s.tabs v).mask ∧ j ≤ j' ∧ j' ≤ (s.tabs v).mask + 1 ∧
      (∀ i, i ≤ j' → i ≤ (s.tabs v).mask → (s'.tabs v).slots i = none) := by
  intro n
  induction n with
  | zero => intro j s _ _ _ h; omega
  | succ n ih =>
    intro j s h h1 hj hn hz
    obtain ⟨k, hk6, hk⟩ := h.pow
    have hand : j &&& (s.tabs v).mask = j % ((s.tabs v).mask + 1) := and_mask j hk
    have hc := h.cap
    unfold rdInner
    rw [M.get_bind_apply, hand]
    have hlt := Nat.mod_lt j (show 0 < (s.tabs v).mask + 1 by omega)
    rw [if_neg (by omega)]
    cases hs : (s.tabs v).slots (j % ((s.tabs v).mask + 1)) with
    | none =>
      refine ⟨j, s, rfl, h, rfl, Nat.le_refl _, hj, ?_⟩
      intro i hi him
      by_cases e : i = j
      · subst e
        rw [Nat.mod_eq_of_lt (by omega)] at hs
        exact hs
      · exact hz i (by omega)
    | some p =>
      have hjm : j ≤ (s.tabs v).mask := by
        rcases Nat.lt_or_ge (s.tabs v).mask j with hlt' | hge
        · have : j = (s.tabs v).mask + 1 := by omega
          rw [this, Nat.mod_self, hz 0 (by omega)] at hs
          cases hs
        · exact hge
      rw [Nat.mod_eq_of_lt (by omega)] at hs ⊢
      obtain ⟨d1, d2, d3, d4⟩ := h.dead j p hjm hs
      dsimp only
      rw [if_pos d2, clearSlot_eq]
      have ht : (clearSlot s v j).tabs v = { s.tabs v with slots := upd (s.tabs v).slots j none, free := (s.tabs v).free + 1 } := by
        simp [clearSlot]
      have hm : ((clearSlot s v j).tabs v).mask = (s.tabs v).mask := by rw [ht]
      obtain ⟨j', s', e, a1, a2, a3, a4, a5⟩ := ih (j + 1) (clearSlot s v j) (h.clear hjm hs) (by omega) (by omega) (by omega) (by
        intro i hi
        rw [ht]
        by_cases e : i = j
        · subst e; exact upd_same _ _ _
        · show upd _ _ _ i = none
          rw [upd_ne _ _ e]; exact hz i (by omega))
      rw [hm] at a2 a4 a5
      exact ⟨j', s', e, a1, a2, by omega, a4, a5⟩

/-- Freeing the dead node in slot `k`. -/
theorem AllDead.drop {refs : Nat → Nat} {v : Nat} {s : Mgr} (h : AllDead refs v s) {k p : Nat} (hk : k ≤ (s.tabs v).mask)
    (hp : (s.tabs v).slots k = some p) : freeNode cfg p s = .ok () (freedState s p) ∧ AllDead refs v (clearSlot (freedState s p) v k) := by
  obtain ⟨d1, d2, d3, d4⟩ := h.dead k p hk hp
  refine ⟨freeNode_ok h.heap d1 d2 d3 d4, ?_⟩
  have hrun := freedState_run h.heap d1 d2
  have ht : (clearSlot (freedState s p) v k).tabs v = { s.tabs v with slots := upd (s.tabs v).slots k none, free := (s.tabs v).free + 1 } := by
    simp [clearSlot, freedState]
  have hsl : ∀ i q, (upd (s.tabs v).slots k none) i = some q → i ≠ k ∧ (s.tabs v).slots i = some q := by
    intro i q e
    by_cases hi : i = k
    · subst hi; simp at e
    · rw [upd_ne _ _ hi] at e; exact ⟨hi, e⟩
  constructor
  · exact (GcRun.congr (s' := clearSlot (freedState s p) v k) hrun.ok rfl rfl rfl rfl).ok
  · rw [ht]
    intro i q hi e
    obtain ⟨hik, e⟩ := hsl i q e
    obtain ⟨c1, c2, c3, c4⟩ := h.dead i q hi e
    have hqp : q ≠ p := by
      rintro rfl
      exact hik (h.inj i k q hi hk e hp)
    obtain ⟨f1, f2, f3, _, f5, f6⟩ := freedCells_eq s.cells p q
    show (freedCells s.cells p q).live = true ∧ (freedCells s.cells p q).xref ≤ 0 ∧ (freedCells s.cells p q).index < topsinkIndex ∧
      (freedCells s.cells p q).lo ≠ (freedCells s.cells p q).hi
    refine ⟨f5.2 ⟨c1, hqp⟩, ?_, by rw [f3]; exact c3, by rw [f1, f2]; exact c4⟩
    rw [f6]
    split <;> split <;> omega
  · rw [ht]; intro i j q hi hj e1 e2; exact h.inj i j q hi hj (hsl _ _ e1).2 (hsl _ _ e2).2
  · rw [ht]
    show (s.tabs v).free + 1 = countFree (upd (s.tabs v).slots k none) ((s.tabs v).mask + 1)
    rw [countFree_remove (by omega) hp, h.free]
  · rw [ht]; exact h.cap
  · rw [ht]; exact h.pow

theorem rdOuter_dead {refs : Nat → Nat} {v : Nat} : ∀ (n k : Nat) (s : Mgr), AllDead refs v s → (s.tabs v).mask + 2 ≤ n + k → 1 ≤ n →
    (∀ i, i < k → i ≤ (s.tabs v).mask → (s.tabs v).slots i = none) →
    ∃ s', rdOuter cfg v n k s = .ok () s' ∧ AllDead refs v s' ∧ (s'.tabs v).mask = (s.tabs v).mask ∧
      ∀ i, i ≤ (s.tabs v).mask → (s'.tabs v).slots i = none := by
  intro n
  induction n with
  | zero => intro k s _ _ h; omega
  | succ n ih =>
    intro k s h hn _ hz
    have hc := h.cap
    obtain ⟨pk, hk6, hk⟩ := h.pow
    have h64 : 63 ≤ (s.tabs v).mask := by
      have : 2 ^ 6 ≤ 2 ^ pk := Nat.pow_le_pow_right (by omega) hk6
      omega
    unfold rdOuter
    rw [M.get_bind_apply]
    by_cases hm : (s.tabs v).mask < k
    · rw [if_pos hm]
      exact ⟨s, rfl, h, rfl, fun i hi => hz i (by omega) hi⟩
    · rw [if_neg hm, if_neg (by omega)]
      cases hs : (s.tabs v).slots k with
      | none =>
        refine ih (k + 1) s h (by omega) (by omega) ?_
        intro i hi him
        by_cases e : i = k
        · subst e; exact hs
        · exact hz i (by omega) him
      | some p =>
        obtain ⟨d1, d2, d3, d4⟩ := h.dead k p (by omega) hs
        obtain ⟨f1, f2⟩ := h.drop (cfg := cfg) (by omega) hs
        have ht : (clearSlot (freedState s p) v k).tabs v = { s.tabs v with slots := upd (s.tabs v).slots k none, free := (s.tabs v).free + 1 } := by
          simp [clearSlot, freedState]
        have hmk : ((clearSlot (freedState s p) v k).tabs v).mask = (s.tabs v).mask := by rw [ht]
        have hz' : ∀ i, i < k + 1 → ((clearSlot (freedState s p) v k).tabs v).slots i = none := by
          intro i hi
          rw [ht]
          by_cases e : i = k
          · subst e; exact upd_same _ _ _
          · show upd _ _ _ i = none
            rw [upd_ne _ _ e]; exact hz i (by omega) (by omega)
        obtain ⟨j', s1, e1, a1, a2, a3, a4, a5⟩ := rdInner_dead (3 * ((s.tabs v).mask + 1) + 1) (k + 1) _ f2 (by omega) (by omega) (by omega) hz'
        rw [hmk] at a2 a4 a5
        obtain ⟨s2, e2, b1, b2, b3⟩ := ih (j' + 1) s1 a1 (by rw [a2]; omega) (by
            omega) (fun i hi him => by rw [a2] at him; exact a5 i (by omega) him)
        refine ⟨s2, ?_, b1, b2.trans a2, fun i hi => b3 i (by omega)⟩
        dsimp only
        rw [if_pos d2, M.bind_ok f1, clearSlot_eq, M.bind_ok e1]
        exact e2

/-- C35 is false in general: a collection crashes as soon as some variable that has grown has only garbage nodes. Here: all handles are
gone, and variable 0 had more than 32 nodes (so that its table has grown). -/
theorem C35_gc_crashes (hR : Reachable cfg .ordered a) (hn : ∀ o ∈ a.hs, o = none) (hv : 0 < a.mgr.nvars) (hm : 63 < (a.mgr.tabs 0).mask) :
    Crash cfg (step cfg .gc a) := by
  have hi := hR.good
  have hcount : ∀ p, a.count p = 0 := by
    intro p
    refine List.count_eq_zero.2 fun hp => ?_
    cases hn _ hp
  have ht := hi.tab 0 hv
  obtain ⟨k, hk6, hk19, hk⟩ := ht.pow
  have ho : Use.ordered.md.ordered := Use.ordered_iff.2 rfl
  have hd : AllDead a.count 0 a.mgr := by
    refine ⟨hi.heapOk, ?_, fun i j p h1 h2 => ht.slots.inj i j p (by omega) (by omega), ht.free, ht.cap, k, hk6, hk⟩
    intro i p hi' e
    obtain ⟨p2, pl, p0⟩ := ht.slots.sound i p (by omega) e
    refine ⟨pl, ?_, by rw [p0]; unfold topsinkIndex; omega, (hi.node p p2 pl).2.1⟩
    have hc := hi.ref.count p pl
    rw [hcount p, if_neg (by omega)] at hc
    rcases Nat.eq_zero_or_pos (arcsTo a.mgr.cells p a.mgr.pool.hw) with h0 | h0
    · rw [hc, h0]; decide
    · obtain ⟨q, q2, _, ql, hq⟩ := arcsTo_pos_inv h0
      have := hi.ord_child ho q2 ql (hq.imp Eq.symm Eq.symm) p2
      omega
  obtain ⟨s1, e1, d1, m1, z1⟩ := rdOuter_dead (cfg := cfg) ((a.mgr.tabs 0).mask + 2) 0 a.mgr hd (by omega) (by omega) (fun i h => by omega)
  have hfree : (s1.tabs 0).free = (s1.tabs 0).mask + 1 := by
    rw [d1.free, countFree_congr (sl' := fun _ => none) (fun i hi => z1 i (by omega)), countFree_empty]
  have hpow : 128 ∣ (a.mgr.tabs 0).mask + 1 := by
    rw [hk]
    have : 7 ≤ k := by
      rcases Nat.lt_or_ge k 7 with h | h
      · have : k = 6 := by omega
        subst this; omega
      · exact h
    exact ⟨2 ^ (k - 7), by rw [show (128 : Nat) = 2 ^ 7 by rfl, ← Nat.pow_add]; congr 1; omega⟩
  have hle : (a.mgr.tabs 0).mask + 1 ≤ 2 ^ 19 := by rw [hk]; exact Nat.pow_le_pow_right (by omega) hk19
  have hcr := C35_shrink_crashes (cfg := cfg) (s := s1) (v := 0) (by rw [m1]; omega) (by rw [m1]; omega) (by rw [m1]; omega)
    (by rw [hfree]; exact Nat.le_refl _) (by rw [hfree]; omega)
  have key : ∀ {α : Type} (f : Unit → M Mgr α), Crash cfg (M.bind (removeDeadNodes cfg 0) f a.mgr) := by
    intro α f
    have : removeDeadNodes cfg 0 a.mgr = shrinkTable cfg 0 s1 := by
      unfold removeDeadNodes
      rw [M.get_bind_apply, M.bind_ok e1]
    unfold M.bind
    rw [this]
    revert hcr
    cases shrinkTable cfg 0 s1 <;> simp [Crash]
  obtain ⟨n, hn'⟩ : ∃ n, a.mgr.nvars = n + 1 := ⟨a.mgr.nvars - 1, by omega⟩
  have h2 : Crash cfg (gcVars cfg a.mgr.nvars 0 a.mgr) := by
    rw [hn']
    exact key _
  have h3 : Crash cfg (collectGarbage cfg a.mgr) := by
    unfold collectGarbage
    rw [M.get_bind_apply]
    show Crash cfg (M.bind _ _ a.mgr)
    unfold M.bind
    revert h2
    cases gcVars cfg a.mgr.nvars 0 a.mgr <;> simp [Crash]
  show Crash cfg (onMgr (collectGarbage cfg) a)
  unfold onMgr
  revert h3
  cases collectGarbage cfg a.mgr <;> simp [Crash]

/-! ## Such a state is reachable, whatever the addresses and hash keys -/

theorem bind_throw_inv {σ α β : Type} {m : M σ α} {f : α → M σ β} {s s' : σ} (e : (m >>= f) s = .throw s') :
    m s = .throw s' ∨ ∃ r s1, m s = .ok r s1 ∧ f r s1 = .throw s' := by
  change M.bind m f s = _ at e
  unfold M.bind at e
  cases h : m s with
  | ok r s1 => rw [h] at e; exact Or.inr ⟨r, s1, rfl, e⟩
  | throw s1 => rw [h] at e; cases e; exact Or.inl rfl
  | assertFail => rw [h] at e; cases e
  | ub => rw [h] at e; cases e
  | hang => rw [h] at e; cases e

theorem assert_no_throw {σ : Type} {nd b : Bool} {s s' : σ} (e : (M.assert nd b : M σ Unit) s = .throw s') : False := by
  unfold M.assert at e
  split at e <;> cases e

theorem assert_same {σ : Type} {nd b : Bool} {s s' : σ} {r : Unit} (e : (M.assert nd b : M σ Unit) s = .ok r s') : s' = s := by
  unfold M.assert at e
  split at e <;> cases e
  rfl

theorem lift_no_throw {σ α : Type} {x : Except Stop α} {s s' : σ} (e : (M.lift x : M σ α) s = .throw s') : False := by
  cases x with
  | ok r => cases e
  | error r => cases r <;> cases e

/-- `unique_find` only throws for a table of 2^19 slots. -/
theorem uniqueFindAux_throw {v l h : Nat} : ∀ (n : Nat) (s s' : Mgr), uniqueFindAux cfg v l h n s = .throw s' → (s.tabs v).mask = 524287 := by
  intro n
  induction n with
  | zero => intro s s' e; cases e
  | succ n ih =>
    intro s s' e
    unfold uniqueFindAux at e
    by_cases hlh : l = h
    · rw [if_pos hlh] at e; cases e
    rw [if_neg hlh, M.get_bind_apply] at e
    rcases bind_throw_inv e with e | ⟨_, s1, e1, e⟩
    · exact (assert_no_throw e).elim
    obtain rfl := assert_same e1
    rcases bind_throw_inv e with e | ⟨o, s2, e2, e⟩
    · exact (lift_no_throw e).elim
    obtain ⟨_, rfl⟩ := lift_ok_inv e2
    cases o with
    | some p => cases e
    | none =>
      dsimp only at e
      obtain ⟨s3, hs3, e⟩ : ∃ s3 : Mgr, (s3.tabs v).mask = (s2.tabs v).mask ∧
          (if ((s2.tabs v).timer + 1) % 1024 = 0 then uniqueFindAux cfg v l h n else insertNode cfg v l h) s3 = .throw s' := by
        rcases bind_throw_inv e with e | ⟨_, s3, e3, e⟩
        · cases e
        · cases e3
          exact ⟨_, by simp, e⟩
      rw [← hs3]
      split at e
      · exact ih _ _ e
      · unfold insertNode at e
        rcases bind_throw_inv e with e | ⟨_, s4, _, e⟩
        · unfold growIfNeeded at e
          rw [M.get_bind_apply] at e
          split at e
          · unfold doubleCache at e
            rw [M.get_bind_apply] at e
            split at e
            · cases e
            · rcases bind_throw_inv e with e | ⟨_, s5, e5, e⟩
              · exact (assert_no_throw e).elim
              obtain rfl := assert_same e5
              rcases bind_throw_inv e with e | ⟨_, s6, _, e⟩
              · cases e
              rcases bind_throw_inv e with e | ⟨_, s7, _, e⟩
              · unfold newPage at e
                cases hpc : pageCapFor ((s5.tabs v).mask + (s5.tabs v).mask + 1) with
                | some c => rw [hpc] at e; cases e
                | none =>
                  rw [hpc] at e
                  dsimp only at e
                  split at e
                  · omega
                  · rcases bind_throw_inv e with e | ⟨_, _, _, e⟩
                    · exact (assert_no_throw e).elim
                    · cases e
              rcases bind_throw_inv e with e | ⟨_, _, _, e⟩
              · exact (lift_no_throw e).elim
              rcases bind_throw_inv e with e | ⟨_, _, _, e⟩
              · exact (assert_no_throw e).elim
              · cases e
          · cases e
        · exfalso
          rcases bind_throw_inv e with e | ⟨_, _, _, e⟩
          · cases e
          rcases bind_throw_inv e with e | ⟨_, _, _, e⟩
          · unfold initNewNode at e
            rcases bind_throw_inv e with e | ⟨_, _, _, e⟩
            · exact assert_no_throw e
            · cases e
          rw [M.get_bind_apply] at e
          rcases bind_throw_inv e with e | ⟨_, _, _, e⟩
          · exact assert_no_throw e
          rcases bind_throw_inv e with e | ⟨_, _, _, e⟩
          · exact lift_no_throw e
          rcases bind_throw_inv e with e | ⟨_, _, _, e⟩
          · cases e
          · cases e

theorem uniqueFind_throw {v l h : Nat} {s s' : Mgr} (e : uniqueFind cfg v l h s = .throw s') : (s.tabs v).mask = 524287 := by
  unfold uniqueFind at e
  rw [M.get_bind_apply] at e
  split at e
  · cases e
  · exact uniqueFindAux_throw _ _ _ e

theorem addVariables_tab : ∀ (n : Nat) (s s' : Mgr), addVariables cfg n s = .ok () s' →
    ∀ v, s.nvars ≤ v → v < s.nvars + n → (s'.tabs v).mask = 63 := by
  intro n
  induction n with
  | zero => intro s s' _ v h1 h2; omega
  | succ n ih =>
    intro s s' e v h1 h2
    have keep : ∀ (n : Nat) (s s' : Mgr), addVariables cfg n s = .ok () s' → ∀ v, v < s.nvars → s'.tabs v = s.tabs v := by
      intro n
      induction n with
      | zero => intro s s' e v _; cases e; rfl
      | succ n ih =>
        intro s s' e v hv
        unfold addVariables at e
        obtain ⟨_, s1, e1, e2⟩ := bind_ok_inv e
        unfold addVariable at e1
        rw [M.get_bind_apply] at e1
        obtain ⟨_, s3, e3, e1⟩ := bind_ok_inv e1
        obtain rfl := assert_same e3
        obtain ⟨_, s4, e4, e1⟩ := bind_ok_inv e1
        cases e4; cases e1
        have := ih _ _ e2 v (Nat.lt_succ_of_lt hv)
        rw [this]
        exact upd_ne _ _ (by omega)
    unfold addVariables at e
    obtain ⟨_, s1, e1, e2⟩ := bind_ok_inv e
    unfold addVariable at e1
    rw [M.get_bind_apply] at e1
    obtain ⟨_, s3, e3, e1⟩ := bind_ok_inv e1
    obtain rfl := assert_same e3
    obtain ⟨_, s4, e4, e1⟩ := bind_ok_inv e1
    cases e4; cases e1
    by_cases hv : v = s3.nvars
    · subst hv
      rw [keep _ _ _ e2 _ (Nat.lt_succ_self _)]
      simp
    · exact ih _ _ e2 v (show s3.nvars + 1 ≤ v by omega) (show v < s3.nvars + 1 + n by omega)

/-- Some reachable state has a grown table for variable 0. -/
theorem grown_reachable (cfg : Cfg) : ∃ a, Reachable cfg .ordered a ∧ 0 < a.mgr.nvars ∧ 63 < (a.mgr.tabs 0).mask := by
  refine Classical.byContradiction fun hno => ?_
  have hT : NoThrow cfg := by
    intro a op a' hR hb hl e ht
    have hrun : ∀ {f : Fn} {is ps : List Nat}, a.args is = some ps → step cfg (.call f is) a = .throw a' →
        ∃ s', f.run cfg ps a.mgr = .throw s' := by
      intro f is ps ha e
      simp only [step] at e
      rw [M.get_bind_apply, ha] at e
      rcases bind_throw_inv e with e | ⟨rs, a1, e1, e2⟩
      · unfold onMgr at e
        cases h : f.run cfg ps a.mgr with
        | throw s' => exact ⟨s', rfl⟩
        | ok _ _ => rw [h] at e; cases e
        | assertFail => rw [h] at e; cases e
        | ub => rw [h] at e; cases e
        | hang => rw [h] at e; cases e
      · exfalso
        have nt : ∀ (rs : List Nat) (b : Api), pushHandles rs b ≠ .throw a' := by
          intro rs
          induction rs with
          | nil => intro b h; cases h
          | cons r rs ih =>
            intro b h
            unfold pushHandles at h
            rcases bind_throw_inv h with h | ⟨_, b1, _, h⟩
            · unfold pushHandle at h
              rcases bind_throw_inv h with h | ⟨_, b1, _, h⟩
              · cases h
              · cases h
            · exact ih _ h
        exact nt _ _ e2
    rcases hb with ⟨v, rfl, hv⟩ | ⟨is, rfl⟩
    · obtain ⟨s', e'⟩ := hrun (args_nil a) e
      rcases bind_throw_inv (show (projection cfg v >>= fun r => pure [r]) a.mgr = .throw s' from e') with e' | ⟨_, _, _, e'⟩
      · unfold projection at e'
        rcases bind_throw_inv e' with e' | ⟨_, s1, e1, e'⟩
        · unfold ensureVar at e'
          rw [M.get_bind_apply] at e'
          have nt : ∀ (n : Nat) (s : Mgr), addVariables cfg n s ≠ .throw s' := by
            intro n
            induction n with
            | zero => intro s h; cases h
            | succ n ih =>
              intro s h
              unfold addVariables at h
              rcases bind_throw_inv h with h | ⟨_, b1, _, h⟩
              · unfold addVariable at h
                rw [M.get_bind_apply] at h
                rcases bind_throw_inv h with h | ⟨_, b1, _, h⟩
                · exact assert_no_throw h
                · rcases bind_throw_inv h with h | ⟨_, b1, _, h⟩
                  · cases h
                  · cases h
              · exact ih _ h
          exact nt _ _ e'
        · unfold ensureVar at e1
          rw [M.get_bind_apply] at e1
          have h1 := addVariables_tab _ _ _ e1 v hv (by omega)
          have h2 := uniqueFind_throw e'
          omega
      · cases e'
    · cases ha : a.args is with
      | none => simp only [step] at e; rw [M.get_bind_apply, ha] at e; cases e
      | some ps =>
        obtain ⟨s', e'⟩ := hrun ha e
        match ps, e' with
        | [l, h], e' =>
          rcases bind_throw_inv (show (mgrUniqueFind cfg 0 l h >>= fun r => pure [r]) a.mgr = .throw s' from e') with e' | ⟨_, _, _, e'⟩
          · unfold mgrUniqueFind at e'
            rw [M.get_bind_apply] at e'
            rcases bind_throw_inv e' with e' | ⟨_, s1, e1, e'⟩
            · exact assert_no_throw e'
            · obtain rfl := assert_same e1
              have := uniqueFind_throw e'
              refine hno ⟨a, hR, ?_, by omega⟩
              have hpre := hl _ ha
              exact hpre.1
          · cases e'
        | [], e' => cases e'
        | [_], e' => cases e'
        | _ :: _ :: _ :: _, e' => cases e'
  obtain ⟨a, f, l, hR, _, hnv, hn, hlen, hl⟩ := build_nodes hT 40 (by omega)
  have ht := hR.good.tab 0 hnv
  have h1 := stored_le ((a.mgr.tabs 0).mask + 1) l hn (fun p hp => ht.slots.complete p ⟨(hl p hp).1, (hl p hp).2.1, (hl p hp).2.2.1⟩)
  have h3 := ht.fill
  have h4 := ht.free
  exact hno ⟨a, hR, hnv, by omega⟩

/-- Dropping handles leaves tables alone. -/
theorem drop_all (hR : Reachable cfg u a) : ∀ n, n ≤ a.hs.length → ∃ a', Reachable cfg u a' ∧ a'.mgr.tabs = a.mgr.tabs ∧
    a'.mgr.nvars = a.mgr.nvars ∧ a'.hs.length = a.hs.length ∧ ∀ i, i < n → a'.hs[i]? = some none := by
  intro n
  induction n with
  | zero => intro _; exact ⟨a, hR, rfl, rfl, rfl, fun i h => by omega⟩
  | succ n ih =>
    intro hn
    obtain ⟨b, hb, h1, h2, h3, h4⟩ := ih (by omega)
    have hlt : n < b.hs.length := by omega
    obtain ⟨o, ho⟩ : ∃ o, b.hs[n]? = some o := ⟨_, List.getElem?_eq_getElem hlt⟩
    obtain ⟨s1, e1, f1, f2⟩ : ∃ s1, optM o (release cfg) b.mgr = .ok () s1 ∧ s1.tabs = b.mgr.tabs ∧ s1.nvars = b.mgr.nvars := by
      cases o with
      | none => exact ⟨_, rfl, rfl, rfl⟩
      | some p =>
        obtain ⟨s1, e1, _⟩ := release_ok hb.good (count_pos ho)
        refine ⟨s1, e1, ?_⟩
        have := release_noAssert e1
        cases this
        exact ⟨rfl, rfl⟩
    have est : step cfg (.drop n) b = .ok () { mgr := s1, hs := b.hs.set n none } := by
      simp only [step]
      rw [M.get_bind_apply, ho]
      dsimp only
      rw [M.bind_ok (show onMgr (optM o (release cfg)) b = .ok () { b with mgr := s1 } by unfold onMgr; rw [e1])]
      rfl
    refine ⟨_, .step (op := .drop n) hb trivial est, f1.trans h1, f2.trans h2, by simpa using h3, ?_⟩
    intro i hi
    show (b.hs.set n none)[i]? = some none
    by_cases e : i = n
    · subst e; simp [hlt]
    · rw [List.getElem?_set_ne (Ne.symm e)]
      exact h4 i (by omega)

/-- C35 is false, in every environment, in debug and release builds: some history of legal calls (more than 32 nodes on one variable, then all
handles are destroyed) leads to a state in which `collect_garbage` crashes while shrinking a table. -/
theorem C35_refuted (cfg : Cfg) : ∃ a, Reachable cfg .ordered a ∧ Crash cfg (step cfg .gc a) := by
  obtain ⟨a, hR, hv, hm⟩ := grown_reachable cfg
  obtain ⟨b, hb, h1, h2, h3, h4⟩ := drop_all hR a.hs.length (Nat.le_refl _)
  refine ⟨b, hb, C35_gc_crashes hb ?_ (by omega) (by rw [h1]; exact hm)⟩
  intro o ho
  obtain ⟨i, hi, e⟩ := List.mem_iff_getElem.1 ho
  have := h4 i (by omega)
  rw [List.getElem?_eq_getElem hi, e] at this
  exact Option.some.inj this

/-- What holds of C35: a collection that leaves every grown table more than an eighth full (`GcSafe`) does not shrink any table, and afterwards
all nodes are found: `unique_find` on the variable and children of a node in use returns that node. -/
theorem C35_not_shrunk_partial (hR : Reachable cfg u a) (hs : GcSafe cfg a) (e : step cfg .gc a = .ok () a') :
    (∀ v, (a'.mgr.tabs v).mask = (a.mgr.tabs v).mask ∧ (a'.mgr.tabs v).cap = (a.mgr.tabs v).cap) ∧
    ∀ p, 2 ≤ p → (a'.mgr.cells p).live = true → (a'.mgr.cells p).index < a'.mgr.nvars ∧
      uniqueFind cfg (a'.mgr.cells p).index (a'.mgr.cells p).lo (a'.mgr.cells p).hi a'.mgr = .ok p a'.mgr := by
  have hR' : Reachable cfg u a' := .step (op := .gc) hR hs e
  obtain ⟨s', e', _, _, hf, _⟩ := gc_good hR.good hs
  rw [e'] at e
  cases e
  refine ⟨fun v => ?_, fun p p2 pl => ?_⟩
  · obtain ⟨h1, h2, h3⟩ := hf.tab v
    exact ⟨h1, h2⟩
  · obtain ⟨h1, h2, _⟩ := hR'.good.node p p2 pl
    exact ⟨h1, uniqueFind_hit hR'.good h1 h2 p2 pl rfl rfl rfl⟩
end
end LBDD
