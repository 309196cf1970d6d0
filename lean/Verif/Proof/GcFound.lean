import Verif.Proof.GcReturn
import Verif.Proof.GcHang
/-! Every collection that returns leaves all nodes with a positive reference count findable in their unique tables. -/
namespace LBDD
section
variable {cfg : Cfg}

/-- `p` is stored where linear probing from `h` finds it. -/
def Fnd (n : Nat) (sl : Nat → Option Nat) (h p : Nat) : Prop := ∃ i, i < n ∧ sl i = some p ∧ Reach n sl h i

/-- `p` is stored in the run of occupied slots from `j` on. -/
def Pend (n : Nat) (sl : Nat → Option Nat) (j p : Nat) : Prop :=
  ∃ m, m < n ∧ sl ((j + m) % n) = some p ∧ ∀ e, e ≤ m → sl ((j + e) % n) ≠ none

theorem Fnd.fill {n h p k q : Nat} {sl : Nat → Option Nat} (hk : sl k = none) (hf : Fnd n sl h p) : Fnd n (upd sl k (some q)) h p := by
  obtain ⟨i, h1, h2, h3⟩ := hf
  refine ⟨i, h1, ?_, h3.upd⟩
  rw [upd_ne _ _ (by rintro rfl; rw [hk] at h2; cases h2)]; exact h2

theorem fill_ne {sl : Nat → Option Nat} {i k q : Nat} (h : sl i ≠ none) : upd sl k (some q) i ≠ none := by
  by_cases e : i = k
  · subst e; rw [upd_same]; simp
  · rw [upd_ne _ _ e]; exact h

/-- A slot with another node is emptied. -/
theorem Fnd.unlink {n h p q j : Nat} {sl : Nat → Option Nat} (hj : sl (j % n) = some q) (hne : p ≠ q) (hf : Fnd n sl h p) :
    Fnd n (upd sl (j % n) none) h p ∨ Pend n (upd sl (j % n) none) (j + 1) p := by
  obtain ⟨i, h1, h2, d, hd, hi, hr⟩ := hf
  have hix : i ≠ j % n := by
    rintro rfl; rw [hj] at h2; cases h2; exact hne rfl
  by_cases hx : ∃ e, e < d ∧ (h + e) % n = j % n
  · obtain ⟨e, he, hx⟩ := hx
    right
    have key : ∀ y, (j + 1 + y) % n = (h + (e + 1 + y)) % n := by
      intro y
      rw [Nat.add_assoc j, Nat.add_mod, ← hx, ← Nat.add_mod]
      congr 1; omega
    refine ⟨d - e - 1, by omega, ?_, fun y hy => ?_⟩
    · rw [key, show h + (e + 1 + (d - e - 1)) = h + d by omega, hi, upd_ne _ _ hix]; exact h2
    · rw [key, upd_ne _ _ ?_]
      · by_cases hyd : e + 1 + y = d
        · rw [hyd, hi, h2]; simp
        · exact hr _ (by omega)
      · rw [← hx]
        exact fun hh => mod_ne (i := h) (a := e) (b := e + 1 + y) (by omega) (by omega) hh.symm
  · left
    refine ⟨i, h1, by rw [upd_ne _ _ hix]; exact h2, d, hd, hi, fun e he => ?_⟩
    rw [upd_ne _ _ (fun hh => hx ⟨e, he, hh⟩)]
    exact hr e he

theorem Pend.next {n p q j : Nat} {sl sl' : Nat → Option Nat} (hj : sl (j % n) = some q) (hne : p ≠ q) (hf : Pend n sl j p)
    (hs : ∀ m, 1 ≤ m → m < n → sl ((j + m) % n) = some p → sl' ((j + m) % n) = some p)
    (ho : ∀ m, 1 ≤ m → m < n → sl ((j + m) % n) ≠ none → sl' ((j + m) % n) ≠ none) : Pend n sl' (j + 1) p := by
  obtain ⟨m, hm, h1, h2⟩ := hf
  have h0 : m ≠ 0 := by
    rintro rfl; rw [Nat.add_zero, hj] at h1; cases h1; exact hne rfl
  refine ⟨m - 1, by omega, ?_, fun e he => ?_⟩
  · rw [show j + 1 + (m - 1) = j + m by omega]
    exact hs m (by omega) hm h1
  · rw [show j + 1 + e = j + (1 + e) by omega]
    exact ho (1 + e) (by omega) (by omega) (h2 _ (by omega))

theorem Pend.unlink {n p q j : Nat} {sl : Nat → Option Nat} (hj : sl (j % n) = some q) (hne : p ≠ q) (hf : Pend n sl j p) :
    Pend n (upd sl (j % n) none) (j + 1) p := by
  have hx : ∀ m, 1 ≤ m → m < n → (j + m) % n ≠ j % n := fun m h1 h2 h =>
    mod_ne (n := n) (i := j) (a := 0) (b := m) (by omega) (by omega) (by simpa using h.symm)
  refine hf.next hj hne (fun m h1 h2 h => ?_) (fun m h1 h2 h => ?_) <;> rw [upd_ne _ _ (hx m h1 h2)] <;> exact h

theorem Pend.fill {n p q j k r : Nat} {sl : Nat → Option Nat} (hk : sl k = none) (hj : sl (j % n) = some q) (hne : p ≠ q) (hf : Pend n sl j p) :
    Pend n (upd sl k (some r)) (j + 1) p := by
  refine hf.next hj hne (fun m h1 h2 h => ?_) (fun m h1 h2 h => fill_ne h)
  rw [upd_ne _ _ (by intro e; rw [e, hk] at h; cases h)]; exact h

/-- Where `next_free_slot` stops, linear probing stops. -/
theorem probeFree_reach {t : VarTable} {kk : Nat} (hk : t.mask + 1 = 2 ^ kk) : ∀ (m l k : Nat), probeFree t m l = .ok k →
    ∃ d, d < m ∧ (l + d) % (t.mask + 1) = k ∧ ∀ e, e < d → t.slots ((l + e) % (t.mask + 1)) ≠ none := by
  intro m
  induction m with
  | zero => intro l k e; cases e
  | succ m ih =>
    intro l k e
    simp only [probeFree] at e
    split at e
    · cases e
    · cases hs : t.slots (l &&& t.mask) with
      | none =>
        rw [hs] at e; cases e
        exact ⟨0, by omega, by rw [and_mask l hk]; rfl, fun e he => absurd he (Nat.not_lt_zero e)⟩
      | some q =>
        rw [hs] at e
        obtain ⟨d, h1, h2, h3⟩ := ih _ _ e
        refine ⟨d + 1, by omega, by rw [← h2]; congr 1; omega, fun e he => ?_⟩
        by_cases h0 : e = 0
        · subst h0; rw [Nat.add_zero, ← and_mask l hk, hs]; simp
        · have := h3 (e - 1) (by omega)
          rwa [show l + 1 + (e - 1) = l + e by omega] at this

/-- The inner loop: live nodes that were findable, or are still to come, are findable in the end. -/
theorem rdInner_found {v kk : Nat} : ∀ (n j : Nat) {s s' : Mgr} {r : Nat}, (s.tabs v).mask + 1 = 2 ^ kk → rdInner v n j s = .ok r s' →
    ∀ p, 0 < (s.cells p).xref →
      (Fnd ((s.tabs v).mask + 1) (s.tabs v).slots (hashCode s.cells (s.cells p).lo (s.cells p).hi) p ∨
        Pend ((s.tabs v).mask + 1) (s.tabs v).slots j p) →
      Fnd ((s.tabs v).mask + 1) (s'.tabs v).slots (hashCode s.cells (s.cells p).lo (s.cells p).hi) p := by
  intro n
  induction n with
  | zero => intro j s s' r _ e; cases e
  | succ n ih =>
    intro j s s' r hm e p hp hf
    unfold rdInner at e
    rw [M.get_bind_apply] at e
    split at e
    · cases e
    · have hjm : j &&& (s.tabs v).mask = j % ((s.tabs v).mask + 1) := and_mask j hm
      cases hs : (s.tabs v).slots (j &&& (s.tabs v).mask) with
      | none =>
        rw [hs] at e
        cases e
        rcases hf with hf | ⟨m, _, _, h⟩
        · exact hf
        · exact absurd (by rw [Nat.add_zero, ← hjm]; exact hs) (h 0 (by omega))
      | some q =>
        rw [hs] at e
        dsimp only at e
        rw [hjm] at hs e
        split at e
        · rename_i hx
          obtain ⟨_, s1, e1, e⟩ := bind_ok_inv e
          obtain ⟨_, s2, e2, e⟩ := bind_ok_inv e
          cases e1
          cases e2
          have hne : p ≠ q := by rintro rfl; omega
          have := ih (j + 1) (by simp only [upd_same]; exact hm) e p hp
          simp only [upd_same] at this
          refine this ?_
          rcases hf with hf | hf
          · exact hf.unlink hs hne
          · exact Or.inr (hf.unlink hs hne)
        · rename_i hx
          split at e
          · cases e
          · obtain ⟨k, s1, e1, e'⟩ := bind_ok_inv e
            obtain ⟨_, s2, e2, e''⟩ := bind_ok_inv e'
            obtain ⟨e3, rfl⟩ := lift_ok_inv e1
            cases e2
            obtain ⟨k1, k2⟩ := probeFree_inv _ _ _ e3
            obtain ⟨d, d1, d2, d3⟩ := probeFree_reach hm _ _ _ e3
            have := ih (j + 1) (by simp only [upd_same]; exact hm) e'' p hp
            simp only [upd_same] at this
            refine this ?_
            by_cases hpq : p = q
            · subst hpq
              refine Or.inl ⟨k, by omega, upd_same _ _ _, Reach.upd ⟨d, d1, d2, d3⟩⟩
            · rcases hf with hf | hf
              · exact Or.inl (hf.fill k2)
              · exact Or.inr (hf.fill k2 hs hpq)

/-- Findable in the table of variable `w`. -/
def FndIn (s : Mgr) (w p : Nat) : Prop :=
  Fnd ((s.tabs w).mask + 1) (s.tabs w).slots (hashCode s.cells (s.cells p).lo (s.cells p).hi) p

/-- What a part of a collection guarantees about nodes with positive reference counts, whatever the layout. -/
structure Retains (s s' : Mgr) : Prop where
  drop : ∀ q, (s'.cells q).xref ≤ (s.cells q).xref
  live : ∀ q, (s.cells q).live = true → 0 < (s'.cells q).xref → (s'.cells q).live = true
  found : ∀ w p, 0 < (s'.cells p).xref → FndIn s w p → FndIn s' w p

theorem Retains.refl (s : Mgr) : Retains s s := ⟨fun _ => Int.le_refl _, fun _ h _ => h, fun _ _ _ h => h⟩

theorem Retains.trans {a b c : Mgr} (h1 : Retains a b) (h2 : Retains b c) : Retains a c where
  drop q := Int.le_trans (h2.drop q) (h1.drop q)
  live q hl hx := h2.live q (h1.live q hl (by have := h2.drop q; omega)) hx
  found w p hx hf := h2.found w p hx (h1.found w p (by have := h2.drop p; omega) hf)

theorem rdOuter_retains {v kk : Nat} : ∀ (n k : Nat) {s s' : Mgr}, (s.tabs v).mask + 1 = 2 ^ kk → rdOuter cfg v n k s = .ok () s' →
    Retains s s' ∧ (∀ w, (s'.tabs w).mask = (s.tabs w).mask ∧ (s'.tabs w).cap = (s.tabs w).cap) ∧ s'.nvars = s.nvars := by
  intro n
  induction n with
  | zero => intro j s s' _ e; cases e
  | succ n ih =>
    intro k s s' hm e
    unfold rdOuter at e
    rw [M.get_bind_apply] at e
    split at e
    · cases e; exact ⟨.refl s, fun _ => ⟨rfl, rfl⟩, rfl⟩
    · rename_i hk
      split at e
      · cases e
      · cases hs : (s.tabs v).slots k with
        | none => rw [hs] at e; exact ih _ hm e
        | some q =>
          rw [hs] at e
          dsimp only at e
          split at e
          · rename_i hx
            obtain ⟨_, s1, e1, f1⟩ := bind_ok_inv e
            obtain ⟨_, s2, e2, f2⟩ := bind_ok_inv f1
            obtain ⟨_, s3, e3, f3⟩ := bind_ok_inv f2
            obtain ⟨j, s4, e4, f4⟩ := bind_ok_inv f3
            obtain ⟨hql, _, rfl⟩ := freeNode_inv e1
            cases e2
            cases e3
            have hmod : k % ((s.tabs v).mask + 1) = k := Nat.mod_eq_of_lt (by omega)
            obtain ⟨t', g1, g2, _⟩ := rdInner_clean _ _ e4
            have hfd := rdInner_found (kk := kk) _ _ (by simp only [freedState, upd_same]; exact hm) e4
            simp only [freedState, upd_same, upd_upd] at g1 g2 hfd
            subst g1
            simp only [upd_same] at hfd
            have hmk : t'.mask = (s.tabs v).mask := g2.mask
            have hx' : ∀ p, (freedCells s.cells q p).xref ≤ (s.cells p).xref := by
              intro p
              rw [(freedCells_eq s.cells q p).2.2.2.2.2]
              split <;> split <;> omega
            have hash : ∀ p, hashCode (freedCells s.cells q) (freedCells s.cells q p).lo (freedCells s.cells q p).hi =
                hashCode s.cells (s.cells p).lo (s.cells p).hi := by
              intro p
              unfold hashCode
              rw [(freedCells_eq s.cells q p).1, (freedCells_eq s.cells q p).2.1, (freedCells_eq s.cells q _).2.2.2.1,
                (freedCells_eq s.cells q _).2.2.2.1]
            have hr : Retains s { freedState s q with tabs := upd s.tabs v t' } := by
              refine ⟨hx', fun p hl hp => ?_, fun w p hp hf => ?_⟩
              · refine (freedCells_eq s.cells q p).2.2.2.2.1.2 ⟨hl, ?_⟩
                rintro rfl
                have := hx' p
                have hp' : 0 < (freedCells s.cells p p).xref := hp
                omega
              · have hp' : 0 < (freedCells s.cells q p).xref := hp
                by_cases hw : w = v
                · subst hw
                  have h := hfd p hp'
                  rw [hash p] at h
                  show Fnd ((upd s.tabs w t' w).mask + 1) (upd s.tabs w t' w).slots (hashCode (freedCells s.cells q) _ _) p
                  rw [upd_same, hmk]
                  show Fnd _ _ (hashCode (freedCells s.cells q) (freedCells s.cells q p).lo (freedCells s.cells q p).hi) p
                  rw [hash p]
                  refine h ?_
                  have hu := Fnd.unlink (j := k) (by rw [hmod]; exact hs) (p := p) (by rintro rfl; have := hx' p; omega) hf
                  rw [hmod] at hu
                  exact hu
                · show Fnd ((upd s.tabs v t' w).mask + 1) (upd s.tabs v t' w).slots
                    (hashCode (freedCells s.cells q) (freedCells s.cells q p).lo (freedCells s.cells q p).hi) p
                  rw [hash p, upd_ne _ _ hw]
                  exact hf
            have htab : ∀ w, (upd s.tabs v t' w).mask = (s.tabs w).mask ∧ (upd s.tabs v t' w).cap = (s.tabs w).cap := by
              intro w
              by_cases hw : w = v
              · subst hw; rw [upd_same]; exact ⟨hmk, g2.cap⟩
              · rw [upd_ne _ _ hw]; exact ⟨rfl, rfl⟩
            obtain ⟨h1, h2, h3⟩ := ih (j + 1) (by rw [(htab v).1]; exact hm) f4
            exact ⟨hr.trans h1, fun w => ⟨(h2 w).1.trans (htab w).1, (h2 w).2.trans (htab w).2⟩, h3⟩
          · exact ih _ hm e

theorem gcVars_retains : ∀ (n i : Nat) {s s' : Mgr}, Sized s → i + n = s.nvars → gcVars cfg n i s = .ok () s' →
    Retains s s' ∧ (∀ w, (s'.tabs w).mask = (s.tabs w).mask ∧ (s'.tabs w).cap = (s.tabs w).cap) ∧ s'.nvars = s.nvars := by
  intro n
  induction n with
  | zero => intro i s s' _ _ e; cases e; exact ⟨.refl s, fun _ => ⟨rfl, rfl⟩, rfl⟩
  | succ n ih =>
    intro i s s' hz hn e
    unfold gcVars at e
    obtain ⟨_, s1, e1, e⟩ := bind_ok_inv e
    unfold removeDeadNodes at e1
    rw [M.get_bind_apply] at e1
    obtain ⟨_, s2, e2, e3⟩ := bind_ok_inv e1
    obtain ⟨⟨k, k6, k19, hk⟩, hc⟩ := hz i (by omega)
    obtain ⟨h1, h2, h3⟩ := rdOuter_retains _ _ hk e2
    obtain ⟨rfl, _⟩ := shrinkTable_ok k6 k19 (by rw [(h2 i).1]; exact hk) e3
    obtain ⟨g1, g2, g3⟩ := ih (i + 1) (fun w hw => by rw [(h2 w).1, (h2 w).2]; exact hz w (by omega)) (by omega) e
    exact ⟨h1.trans g1, fun w => ⟨(g2 w).1.trans (h2 w).1, (g2 w).2.trans (h2 w).2⟩, g3.trans h3⟩

/-- No collection that returns shrinks a table or loses a node with a positive reference count. -/
theorem collectGarbage_retains {s s' : Mgr} (hz : Sized s) (e : collectGarbage cfg s = .ok () s') :
    Retains s s' ∧ (∀ w, (s'.tabs w).mask = (s.tabs w).mask ∧ (s'.tabs w).cap = (s.tabs w).cap) ∧ s'.nvars = s.nvars := by
  unfold collectGarbage at e
  rw [M.get_bind_apply] at e
  obtain ⟨_, s1, e1, e2⟩ := bind_ok_inv e
  obtain ⟨h1, h2, h3⟩ := gcVars_retains _ 0 hz (by omega) e1
  cases e2
  exact ⟨⟨h1.drop, h1.live, h1.found⟩, h2, h3⟩

/-- Probing for a triple finds the first node with these children on the way. -/
theorem probeKey_found {cells : Nat → Cell} {t : VarTable} {kk l h p : Nat} (hk : t.mask + 1 = 2 ^ kk) (hc : t.mask + 1 ≤ t.cap)
    (hlive : ∀ i q, i ≤ t.mask → t.slots i = some q → (cells q).live = true)
    (hone : ∀ i q, i ≤ t.mask → t.slots i = some q → (cells q).lo = l → (cells q).hi = h → q = p)
    (hp1 : (cells p).lo = l) (hp2 : (cells p).hi = h) :
    ∀ (d m a : Nat), d < m → t.slots ((a + d) % (t.mask + 1)) = some p → (∀ e, e < d → t.slots ((a + e) % (t.mask + 1)) ≠ none) →
      probeKey cells t l h m a = .ok (some p) := by
  intro d
  induction d with
  | zero =>
    intro m a hm hs _
    obtain ⟨m, rfl⟩ : ∃ m', m = m' + 1 := ⟨m - 1, by omega⟩
    have hle : a &&& t.mask ≤ t.mask := Nat.and_le_right
    rw [Nat.add_zero, ← and_mask a hk] at hs
    simp only [probeKey]
    rw [if_neg (by omega), hs]
    simp only
    rw [if_neg (by simp [hlive _ _ hle hs]), if_pos ⟨hp1, hp2⟩]
  | succ d ih =>
    intro m a hm hs ho
    obtain ⟨m, rfl⟩ : ∃ m', m = m' + 1 := ⟨m - 1, by omega⟩
    have hle : a &&& t.mask ≤ t.mask := Nat.and_le_right
    have h0 := ho 0 (by omega)
    rw [Nat.add_zero, ← and_mask a hk] at h0
    simp only [probeKey]
    rw [if_neg (by omega)]
    cases hq : t.slots (a &&& t.mask) with
    | none => exact absurd hq h0
    | some q =>
      simp only
      rw [if_neg (by simp [hlive _ _ hle hq])]
      by_cases hlh : (cells q).lo = l ∧ (cells q).hi = h
      · rw [if_pos hlh, hone _ _ hle hq hlh.1 hlh.2]
      · rw [if_neg hlh]
        refine ih m (a + 1) (by omega) (by rw [show a + 1 + d = a + (d + 1) by omega]; exact hs) (fun e he => ?_)
        rw [show a + 1 + e = a + (e + 1) by omega]
        exact ho (e + 1) (by omega)
end
end LBDD
