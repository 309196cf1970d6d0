import Verif.Model.CostOps
import Verif.Proof.Cost
import Verif.Proof.KeepVars
/-! How many of the entries of a set of keys the memo cache holds, and how an insertion changes that. -/
namespace LBDD

/-! ### Doubling adds nothing -/

theorem Placed.find_double {cells : Nat → Cell} {m : Memo} (hm : Placed cells m) {f g h r : Nat} (hf : (m.double cells).find cells f g h = some r) :
    m.find cells f g h = some r := by
  revert hf
  unfold Memo.double
  split
  · exact id
  · obtain ⟨k, hk⟩ := hm.pow
    have hpos : 0 < m.size := by rw [hk]; exact Nat.two_pow_pos k
    simp only
    generalize he0 : (fun k => if k < m.size then m.entries k else emptyEntry) = e0
    have ent : ∀ i, i < m.size → e0 i = m.entries i := by intro i hi; rw [← he0]; simp [hi]
    have hplace : ∀ i, i < m.size → (e0 i).r.isSome = true → entryHash cells (e0 i) % m.size = i := by
      intro i hi hr
      rw [ent i hi] at hr ⊢
      exact hm.place i hi hr
    have hhigh : ∀ i, m.size ≤ i → e0 i = emptyEntry := by intro i hi; rw [← he0]; simp [Nat.not_lt.2 hi]
    have key := memoRehash_moved hk hplace hhigh m.size (Nat.le_refl _)
    generalize hE : (memoRehash cells (2 * m.size - 1) m.size e0) = E at *
    obtain ⟨E1, occ⟩ := E
    simp only at key ⊢
    rw [find_iff, find_iff]
    simp only
    have hlt : cacheHash cells f g h % (2 * m.size) < 2 * m.size := Nat.mod_lt _ (by omega)
    intro hf
    rw [key _ hlt] at hf
    have hh : entryHash cells ⟨some f, some g, h, some r⟩ = cacheHash cells f g h := rfl
    unfold moved at hf
    split at hf
    · rename_i hj
      split at hf
      · exact absurd (congrArg MemoEntry.r hf) (by simp)
      · have h1 := hplace _ hj (by rw [hf]; rfl)
        rw [hf, hh] at h1
        rw [h1, ← ent _ hj]
        exact hf
    · rename_i hj
      split at hf
      · have hj' : cacheHash cells f g h % (2 * m.size) - m.size < m.size := by omega
        have h1 := hplace _ hj' (by rw [hf]; rfl)
        rw [hf, hh] at h1
        rw [h1, ← ent _ hj']
        exact hf
      · exact absurd (congrArg MemoEntry.r hf) (by simp [emptyEntry])

/-! ### Keys in the cache -/

/-- A key of the memo cache: two operands and an operation tag or third operand. -/
abbrev Key := Nat × Nat × Nat

/-- The cache has a result for the key. -/
def Has (s : Mgr) (k : Key) : Prop := (s.memo.find s.cells k.1 k.2.1 k.2.2).isSome = true

instance (s : Mgr) (k : Key) : Decidable (Has s k) := by unfold Has; infer_instance

/-- Number of keys of `K` for which the cache has a result. -/
def held (K : List Key) (s : Mgr) : Nat := K.countP fun k => decide (Has s k)

theorem held_le (K : List Key) (s : Mgr) : held K s ≤ K.length := List.countP_le_length

theorem has_congr {s s' : Mgr} {k : Key} (hm : s'.memo = s.memo) (h1 : (s'.cells k.1).hashKey = (s.cells k.1).hashKey)
    (h2 : (s'.cells k.2.1).hashKey = (s.cells k.2.1).hashKey) : Has s' k ↔ Has s k := by
  unfold Has Memo.find cacheHash
  rw [hm, h1, h2]

theorem countP_gain {α : Type} {p q : α → Bool} : ∀ {l : List α} {x : α}, (∀ k ∈ l, p k = true → q k = true) → x ∈ l → q x = true → p x = false →
    l.countP p + 1 ≤ l.countP q
  | [], _, _, hx, _, _ => by cases hx
  | a :: l, x, hpq, hx, h1, h2 => by
    rw [List.countP_cons, List.countP_cons]
    have hmono : l.countP p ≤ l.countP q := List.countP_mono_left fun k hk => hpq k (by simp [hk])
    rcases List.mem_cons.1 hx with rfl | hx
    · simp only [h1, h2, if_true, Bool.false_eq_true, if_false]; omega
    · have ih := countP_gain (fun k hk => hpq k (by simp [hk])) hx h1 h2
      have := hpq a (by simp)
      by_cases hp : p a = true
      · simp only [hp, this hp, if_true]; omega
      · simp only [hp, if_false, Bool.false_eq_true]; omega

theorem countP_lose {α : Type} {p q : α → Bool} {y : α} : ∀ {l : List α}, l.Nodup → (∀ k ∈ l, p k = true → q k = true ∨ k = y) →
    l.countP p ≤ l.countP q + 1
  | [], _, _ => by simp
  | a :: l, hn, h => by
    rw [List.countP_cons, List.countP_cons]
    have hn := List.nodup_cons.1 hn
    by_cases e : a = y
    · subst e
      have hmono : l.countP p ≤ l.countP q := List.countP_mono_left fun k hk hp => (h k (by simp [hk]) hp).resolve_right (by rintro rfl; exact hn.1 hk)
      by_cases hp : p a = true
      · simp only [hp, if_true]; omega
      · simp only [hp, if_false, Bool.false_eq_true]; omega
    · have ih := countP_lose hn.2 fun k hk => h k (by simp [hk])
      by_cases hp : p a = true
      · have hq : q a = true := (h a (by simp) hp).resolve_right e
        simp only [hp, hq, if_true]; omega
      · simp only [hp, if_false, Bool.false_eq_true]; omega

/-! ### Functions that do not touch the cache -/

/-- The function does not change the memo cache. -/
class Mmk {α : Type} (m : M Mgr α) : Prop where
  at' : ∀ s a s', m s = .ok a s' → s'.memo = s.memo

section
variable {α β : Type} {cfg : Cfg}
theorem Mmk.pure (a : α) : Mmk (Pure.pure a : M Mgr α) := ⟨fun s b s' e => by cases e; rfl⟩
theorem Mmk.ub : Mmk (M.ub : M Mgr α) := ⟨fun s a s' e => by cases e⟩
theorem Mmk.hang : Mmk (M.hang : M Mgr α) := ⟨fun s a s' e => by cases e⟩
theorem Mmk.throw : Mmk (M.throw : M Mgr α) := ⟨fun s a s' e => by cases e⟩
theorem Mmk.assert (b c : Bool) : Mmk (M.assert b c : M Mgr Unit) := ⟨fun s a s' e => by
  unfold M.assert at e
  split at e
  · cases e; rfl
  · cases e⟩
theorem Mmk.lift (x : Except Stop α) : Mmk (M.lift x : M Mgr α) := ⟨fun s a s' e => by
  match x, e with
  | .ok _, e => cases e; rfl
  | .error .ub, e => cases e
  | .error .hang, e => cases e⟩
theorem Mmk.get : Mmk (M.get : M Mgr Mgr) := ⟨fun s a s' e => by cases e; rfl⟩
theorem Mmk.modify0 {g : Mgr → Mgr} (h : ∀ s, (g s).memo = s.memo) : Mmk (M.modify g) := ⟨fun s a s' e => by cases e; exact h s⟩
theorem Mmk.bind {m : M Mgr α} {f : α → M Mgr β} (hm : Mmk m) (hf : ∀ a, Mmk (f a)) : Mmk (m >>= f) := by
  refine ⟨fun s b s' e => ?_⟩
  obtain ⟨a, s1, e1, e2⟩ := bind_ok_inv e
  rw [(hf a).at' _ _ _ e2, hm.at' _ _ _ e1]

macro "mmk" : tactic => `(tactic| repeat' first
  | infer_instance
  | with_reducible exact Mmk.pure _
  | with_reducible exact Mmk.ub
  | with_reducible exact Mmk.hang
  | with_reducible exact Mmk.throw
  | with_reducible exact Mmk.assert _ _
  | with_reducible exact Mmk.lift _
  | with_reducible exact Mmk.get
  | ((with_reducible refine Mmk.modify0 ?_); exact fun _ => rfl)
  | (with_reducible refine Mmk.bind ?_ (fun _ => ?_))
  | split
  | (dsimp only))

instance isBot_mmk (p : Nat) : Mmk (isBot cfg p) := by unfold isBot; mmk
instance isTop_mmk (p : Nat) : Mmk (isTop cfg p) := by unfold isTop; mmk
instance lowOf_mmk (p : Nat) : Mmk (lowOf p) := by unfold lowOf; mmk
instance highOf_mmk (p : Nat) : Mmk (highOf p) := by unfold highOf; mmk
instance newPage_mmk (n : Nat) : Mmk (newPage cfg n) := by unfold newPage; mmk
instance setTab_mmk (v : Nat) (t : VarTable) : Mmk (setTab v t) := by unfold setTab; mmk
instance doubleCache_mmk (v : Nat) : Mmk (doubleCache cfg v) := by unfold doubleCache; mmk
instance growIfNeeded_mmk (v : Nat) : Mmk (growIfNeeded cfg v) := by unfold growIfNeeded; mmk
instance reserveNode_mmk : Mmk reserveNode := ⟨fun s a s' e => by unfold reserveNode at e; cases e; rfl⟩
instance initNewNode_mmk (p l h v : Nat) : Mmk (initNewNode cfg p l h v) := by unfold initNewNode; mmk
instance insertNode_mmk (v l h : Nat) : Mmk (insertNode cfg v l h) := by unfold insertNode; mmk
instance uniqueFindAux_mmk (v l h n : Nat) : Mmk (uniqueFindAux cfg v l h n) := by
  induction n with
  | zero => exact Mmk.hang
  | succ n ih => unfold uniqueFindAux; mmk
instance uniqueFind_mmk (v l h : Nat) : Mmk (uniqueFind cfg v l h) := by unfold uniqueFind; mmk
instance args2_mmk {m1 m2 : M Mgr Nat} [Mmk m1] [Mmk m2] : Mmk (args2 cfg m1 m2) := by unfold args2; mmk
instance negateRec_mmk (n p : Nat) : Mmk (negateRec cfg n p) := by
  induction n generalizing p with
  | zero => exact Mmk.hang
  | succ n ih =>
    have h1 : Mmk (do let l ← lowOf p; negateRec cfg n l) := Mmk.bind inferInstance fun _ => ih _
    have h2 : Mmk (do let h ← highOf p; negateRec cfg n h) := Mmk.bind inferInstance fun _ => ih _
    unfold negateRec; mmk
instance negateOp_mmk (p : Nat) : Mmk (negateOp cfg p) := by unfold negateOp; mmk
end

/-! ### One insertion -/

section
variable {cfg : Cfg} {md : Md} {refs : Nat → Nat} {s s' : Mgr}

theorem Inv.placed (hi : Inv cfg md refs s) : Placed s.cells s.memo := ⟨hi.memo.pow, hi.memo.mask, hi.memo.place⟩

theorem Inv.lookup_find (hi : Inv cfg md refs s) (f g h : Nat) : cacheLookup cfg f g h s = .ok (s.memo.find s.cells f g h) s := by
  obtain ⟨o, e, _⟩ := cacheLookup_ok hi f g h
  rw [e]
  unfold cacheLookup at e
  rw [M.get_bind_apply, M.assert_bind_apply (by rw [hi.memo.mask]; simp)] at e
  have hs := hi.placed.slot (cacheHash s.cells f g h)
  simp only at e
  split at e
  · cases e
  · rw [hs] at e
    unfold Memo.find
    simp only
    generalize s.memo.entries (cacheHash s.cells f g h % s.memo.size) = en at *
    obtain ⟨ef, eg, eh, er⟩ := en
    cases er with
    | none => cases e; simp
    | some r =>
      simp only at e ⊢
      split at e
      · rename_i hm
        split at e
        · obtain ⟨_, _, _, h2⟩ := bind_ok_inv e
          cases h2
        · cases e
          rw [if_pos hm]
      · rename_i hm
        cases e
        rw [if_neg hm]

theorem ready_placed {cells : Nat → Cell} {m : Memo} (hm : Placed cells m) : Placed cells (m.ready cells) := by
  unfold Memo.ready
  have h : Placed cells { m with inserts := m.inserts + 1 } := ⟨hm.pow, hm.mask, hm.place⟩
  split
  · exact h.double_place
  · exact h

theorem ready_find {cells : Nat → Cell} {m : Memo} (hm : Placed cells m) (f g h r : Nat) :
    (m.ready cells).find cells f g h = some r ↔ m.find cells f g h = some r := by
  unfold Memo.ready
  have h' : Placed cells { m with inserts := m.inserts + 1 } := ⟨hm.pow, hm.mask, hm.place⟩
  split
  · exact ⟨fun e => h'.find_double e, fun e => h'.double_find e⟩
  · exact Iff.rfl

/-- The state after an insertion. -/
theorem cacheInsert_state {f g h r : Nat} (e : cacheInsert cfg f g h r s = .ok () s') :
    s' = { s with memo := { s.memo.ready s.cells with
      entries := upd (s.memo.ready s.cells).entries (cacheHash s.cells f g h &&& (s.memo.ready s.cells).mask) ⟨some f, some g, h, some r⟩ } } := by
  have hr : s.memo.ready s.cells = (if s.memo.threshold ≤ s.memo.inserts + 1 then
      ({ s.memo with inserts := s.memo.inserts + 1 } : Memo).double s.cells else { s.memo with inserts := s.memo.inserts + 1 }) := rfl
  unfold cacheInsert at e
  rw [M.get_bind_apply] at e
  simp only at e
  rw [← hr] at e
  generalize s.memo.ready s.cells = m at *
  obtain ⟨_, s1, e1, e2⟩ := bind_ok_inv e
  have : s1 = s := by
    unfold M.assert at e1
    split at e1 <;> cases e1
    rfl
  subst this
  split at e2
  · cases e2
  · cases e2; rfl

/-- Effect of an insertion on the keys in the cache: the inserted key is there; of the other keys none appears and at most `evicted` of them go. -/
theorem insert_has (hp : Placed s.cells s.memo) {f g h r : Nat} (e : cacheInsert cfg f g h r s = .ok () s') :
    Has s' (f, g, h) ∧ (∀ k, Has s' k → Has s k ∨ k = (f, g, h)) ∧
      (evicted s f g h = 0 → ∀ k, Has s k → Has s' k) ∧ evicted s f g h ≤ 1 ∧ ∃ y : Key, ∀ k, Has s k → Has s' k ∨ k = y := by
  have hs' := cacheInsert_state e
  have hpr := ready_placed hp
  have hfind := ready_find hp
  have hev : evicted s f g h = if ((s.memo.ready s.cells).entries (cacheHash s.cells f g h % (s.memo.ready s.cells).size)).r.isSome = true ∧
      ¬ (((s.memo.ready s.cells).entries (cacheHash s.cells f g h % (s.memo.ready s.cells).size)).f = some f ∧
        ((s.memo.ready s.cells).entries (cacheHash s.cells f g h % (s.memo.ready s.cells).size)).g = some g ∧
        ((s.memo.ready s.cells).entries (cacheHash s.cells f g h % (s.memo.ready s.cells).size)).h = h) then 1 else 0 := by
    unfold evicted
    simp only
    rw [hpr.slot]
  rw [hpr.slot] at hs'
  generalize hm : s.memo.ready s.cells = m at *
  have hc : s'.cells = s.cells := by rw [hs']
  have hms : s'.memo.size = m.size := by rw [hs']
  have hme : s'.memo.entries = upd m.entries (cacheHash s.cells f g h % m.size) ⟨some f, some g, h, some r⟩ := by rw [hs']
  clear hs' e
  have hf' : ∀ (k : Key) (q : Nat), s'.memo.find s'.cells k.1 k.2.1 k.2.2 = some q ↔
      upd m.entries (cacheHash s.cells f g h % m.size) ⟨some f, some g, h, some r⟩ (cacheHash s.cells k.1 k.2.1 k.2.2 % m.size) =
        ⟨some k.1, some k.2.1, k.2.2, some q⟩ := by
    intro k q
    rw [find_iff, hc, hms, hme]
  have hf0 : ∀ (k : Key) (q : Nat), s.memo.find s.cells k.1 k.2.1 k.2.2 = some q ↔
      m.entries (cacheHash s.cells k.1 k.2.1 k.2.2 % m.size) = ⟨some k.1, some k.2.1, k.2.2, some q⟩ := by
    intro k q
    rw [← hfind, find_iff]
  have hHas' : ∀ k, Has s' k ↔ ∃ q, upd m.entries (cacheHash s.cells f g h % m.size) ⟨some f, some g, h, some r⟩ (cacheHash s.cells k.1 k.2.1 k.2.2 % m.size) =
        ⟨some k.1, some k.2.1, k.2.2, some q⟩ := by
    intro k
    unfold Has
    rw [Option.isSome_iff_exists]
    exact ⟨fun ⟨q, hq⟩ => ⟨q, (hf' k q).1 hq⟩, fun ⟨q, hq⟩ => ⟨q, (hf' k q).2 hq⟩⟩
  have hHas : ∀ k, Has s k ↔ ∃ q, m.entries (cacheHash s.cells k.1 k.2.1 k.2.2 % m.size) = ⟨some k.1, some k.2.1, k.2.2, some q⟩ := by
    intro k
    unfold Has
    rw [Option.isSome_iff_exists]
    exact ⟨fun ⟨q, hq⟩ => ⟨q, (hf0 k q).1 hq⟩, fun ⟨q, hq⟩ => ⟨q, (hf0 k q).2 hq⟩⟩
  generalize hj : cacheHash s.cells f g h % m.size = j at *
  refine ⟨?_, ?_, ?_, ?_, ?_⟩
  · rw [hHas']
    refine ⟨r, ?_⟩
    simp only
    rw [hj, upd_same]
  · intro k hk
    obtain ⟨q, hq⟩ := (hHas' k).1 hk
    by_cases ej : cacheHash s.cells k.1 k.2.1 k.2.2 % m.size = j
    · rw [ej, upd_same] at hq
      right
      obtain ⟨k1, k2, k3⟩ := k
      simp only [MemoEntry.mk.injEq, Option.some.injEq] at hq
      obtain ⟨rfl, rfl, rfl, _⟩ := hq
      rfl
    · rw [upd_ne _ _ ej] at hq
      exact Or.inl ((hHas k).2 ⟨q, hq⟩)
  · intro h0 k hk
    obtain ⟨q, hq⟩ := (hHas k).1 hk
    rw [hHas']
    by_cases ej : cacheHash s.cells k.1 k.2.1 k.2.2 % m.size = j
    · rw [ej] at hq ⊢
      rw [upd_same]
      rw [hev, hq] at h0
      split at h0
      · cases h0
      · rename_i hn
        obtain ⟨k1, k2, k3⟩ := k
        simp only [Option.isSome_some, Option.some.injEq, true_and, Decidable.not_not] at hn
        obtain ⟨rfl, rfl, rfl⟩ := hn
        exact ⟨r, rfl⟩
    · rw [upd_ne _ _ ej]
      exact ⟨q, hq⟩
  · rw [hev]; split <;> omega
  · refine ⟨((m.entries j).f.getD 0, (m.entries j).g.getD 0, (m.entries j).h), fun k hk => ?_⟩
    obtain ⟨q, hq⟩ := (hHas k).1 hk
    by_cases ej : cacheHash s.cells k.1 k.2.1 k.2.2 % m.size = j
    · rw [ej] at hq
      right
      rw [hq]
      rfl
    · left
      rw [hHas']
      rw [upd_ne _ _ ej]
      exact ⟨q, hq⟩

/-- An insertion loses at most `evicted` keys of `K`. -/
theorem insert_held (hp : Placed s.cells s.memo) {K : List Key} (hK : K.Nodup) {f g h r : Nat} (e : cacheInsert cfg f g h r s = .ok () s') :
    held K s ≤ held K s' + evicted s f g h := by
  obtain ⟨_, _, h3, h4, y, h5⟩ := insert_has hp e
  unfold held
  by_cases h0 : evicted s f g h = 0
  · rw [h0, Nat.add_zero]
    exact List.countP_mono_left fun k _ hk => by
      simp only [decide_eq_true_eq] at hk ⊢
      exact h3 h0 k hk
  · rw [show evicted s f g h = 1 by omega]
    exact countP_lose (y := y) hK fun k _ hk => by
      simp only [decide_eq_true_eq] at hk ⊢
      exact h5 k hk

/-- The insertion of a new key of `K` gains one. -/
theorem insert_gain (hp : Placed s.cells s.memo) {K : List Key} (hK : K.Nodup) {f g h r : Nat} (hm : (f, g, h) ∈ K) (hn : ¬ Has s (f, g, h))
    (e : cacheInsert cfg f g h r s = .ok () s') : held K s + 1 ≤ held K s' + evicted s f g h := by
  obtain ⟨h1, _, h3, h4, y, h5⟩ := insert_has hp e
  unfold held
  by_cases h0 : evicted s f g h = 0
  · rw [h0, Nat.add_zero]
    refine countP_gain (x := (f, g, h)) ?_ hm (by simpa using h1) (by simpa using hn)
    intro k _ hk
    simp only [decide_eq_true_eq] at hk ⊢
    exact h3 h0 k hk
  · rw [show evicted s f g h = 1 by omega]
    refine Nat.le_trans (countP_gain (x := (f, g, h)) (q := fun k => decide (Has s' k) || decide (k = y)) ?_ hm (by simp [h1]) (by simpa using hn)) ?_
    · intro k _ hk
      simp only [decide_eq_true_eq, Bool.or_eq_true] at hk ⊢
      exact h5 k hk
    · refine countP_lose (y := y) hK fun k _ hk => ?_
      simp only [decide_eq_true_eq, Bool.or_eq_true] at hk ⊢
      exact hk
end
end LBDD
